/-
C98: fields as collections of variables.
-/
import Verif.Model.Container
import Verif.Props.Field
import Mathlib.Data.List.SplitOn
import Mathlib.Data.List.Perm.Basic

namespace Probayes

section
variable (info : ℕ → VarInfo) (s : FieldState) (vs : List ℕ) (hh : Spec.Holds info s vs)
  (hn : (vs.map fun v => (info v).name).Nodup)
include hh

theorem Spec.Holds.keys : s.vars.keys = vs.map fun v => (info v).name := by
  rw [hh.2.2]; simp [Dict.keys]

include hn in
theorem Spec.Holds.get {v : ℕ} (hv : v ∈ vs) : s.vars.get? (info v).name = some v := by
  refine Dict.get?_of_mem ?_ ?_
  · rw [hh.keys]; exact hn
  · rw [hh.2.2]; exact List.mem_map.mpr ⟨v, hv, rfl⟩

/-- C98: `len(field)` is the number of its variables. -/
theorem C98_len : s.len = vs.length := hh.2.1

include hn in
/-- C98: `field[i]` is the `i`-th variable. -/
theorem C98_index (i : ℕ) (hi : i < vs.length) : s.getitem (.int i) = .ok (some vs[i]) := by
  have h0 : ¬ ((i : ℤ) < 0) := by omega
  simp only [FieldState.getitem, pyIndex, if_neg h0, hh.keys, Int.toNat_natCast, List.getElem?_map,
    List.getElem?_eq_getElem hi, Option.map_some, bind, Except.bind,
    Spec.Holds.get info s vs hh hn (List.getElem_mem hi)]

include hn in
/-- C98: `field[-i]` is the `i`-th variable from the end. -/
theorem C98_index_end (i : ℕ) (h0 : 1 ≤ i) (hi : i ≤ vs.length) :
    s.getitem (.int (-(i : ℤ))) = .ok (some (vs[vs.length - i]'(by omega))) := by
  have h1 : (-(i : ℤ)) < 0 := by omega
  have h2 : ¬ (-(i : ℤ) + (vs.length : ℤ) < 0) := by omega
  have h3 : (-(i : ℤ) + (vs.length : ℤ)).toNat = vs.length - i := by omega
  have h4 : vs.length - i < vs.length := by omega
  simp only [FieldState.getitem, pyIndex, if_pos h1, hh.keys, List.length_map, if_neg h2, h3,
    List.getElem?_map, List.getElem?_eq_getElem h4, Option.map_some, bind, Except.bind,
    Spec.Holds.get info s vs hh hn (List.getElem_mem h4)]

/-- C98: an integer out of range is an IndexError. -/
theorem C98_index_refused (i : ℤ) (hi : i < -(vs.length : ℤ) ∨ (vs.length : ℤ) ≤ i) :
    s.getitem (.int i) = .error .index := by
  have hp : pyIndex s.vars.keys i = .error .index := by
    rw [hh.keys]
    simp only [pyIndex, List.length_map]
    rcases hi with hi | hi
    · have h1 : i < 0 := by omega
      have h2 : i + (vs.length : ℤ) < 0 := by omega
      rw [if_pos h1, if_pos h2]
    · have h1 : ¬ i < 0 := by omega
      have h3 : vs.length ≤ i.toNat := by omega
      rw [if_neg h1, if_neg h1, List.getElem?_eq_none (by simpa using h3)]
  simp only [FieldState.getitem, hp, bind, Except.bind]

include hn in
/-- C98: `field[name]` is the variable of that name; `None` exactly if there is none. -/
theorem C98_name (n : Str) :
    (∀ v ∈ vs, (info v).name = n → s.getitem (.str n) = .ok (some v)) ∧
    ((∀ v ∈ vs, (info v).name ≠ n) ↔ s.getitem (.str n) = .ok none) := by
  have h1 : ∀ v ∈ vs, (info v).name = n → s.getitem (.str n) = .ok (some v) := by
    rintro v hv rfl
    have hk : (info v).name ∈ s.vars.keys := by
      rw [hh.keys]; exact List.mem_map.mpr ⟨v, hv, rfl⟩
    simp only [FieldState.getitem, if_pos hk, Spec.Holds.get info s vs hh hn hv]
  refine ⟨h1, fun h => ?_, fun h v hv e => ?_⟩
  · have hk : n ∉ s.vars.keys := by
      rw [hh.keys]
      rintro h'
      obtain ⟨v, hv, e⟩ := List.mem_map.mp h'
      exact h v hv e
    simp only [FieldState.getitem, if_neg hk]
  · rw [h1 v hv e] at h
    cases h

/-- C98: making variables of the name of a field makes variables of the names of its variables. -/
theorem C98_names (ident : Str → Bool) (hid : ∀ n, ident n = true → ',' ∉ n) (hne : vs ≠ [])
    (hv : ∀ v ∈ vs, ident (info v).name = true) :
    makeNames ident (.text s.name) = .ok (vs.map fun v => (info v).name) := by
  have hs : s.name.splitOn ',' = vs.map fun v => (info v).name := by
    rw [FieldState.name, hh.keys]
    refine List.splitOn_intercalate _ ?_ (by simpa using hne)
    intro n hn'
    obtain ⟨v, hv', rfl⟩ := List.mem_map.mp hn'
    exact hid _ (hv v hv')
  simp only [makeNames, hs]
  clear hs hne hh
  induction vs with
  | nil => rfl
  | cons v vs ih =>
    rw [List.map_cons, List.mapM_cons, ih fun w hw => hv w (by simp [hw])]
    simp [hv v (by simp), bind, Except.bind, pure, Except.pure]

end

/-! ### Subfields -/

theorem vertex_names (info : ℕ → VarInfo) (s : FieldState) (vs : List ℕ) (hh : Spec.Holds info s vs)
    (hn : (vs.map fun v => (info v).name).Nodup) (ws : List ℕ) (hw : ∀ w ∈ ws, w ∈ vs) :
    (ws.map fun w => Vertex.name (info w).name).mapM s.vertex = .ok ws := by
  induction ws with
  | nil => rfl
  | cons w ws ih =>
    rw [List.map_cons, List.mapM_cons, ih fun x hx => hw x (by simp [hx])]
    simp [FieldState.vertex, Spec.Holds.get info s vs hh hn (hw w (by simp)), bind, Except.bind, pure,
      Except.pure]

theorem vertex_vars (s : FieldState) (ws : List ℕ) : (ws.map Vertex.var).mapM s.vertex = .ok ws := by
  induction ws with
  | nil => rfl
  | cons w ws ih =>
    rw [List.map_cons, List.mapM_cons, ih]
    simp [FieldState.vertex, bind, Except.bind, pure, Except.pure]

/-- C98 as documented: the subfield of any members, given by name or as variables, of a field of
any kind has these as variables, in the order asked for; what is not a member is refused; and two
fields are equal exactly if they comprise the same variables, and unequal otherwise. -/
def C98_claim : Prop :=
  (∀ (info : ℕ → VarInfo) (s : FieldState) (vs ws : List ℕ), Spec.Holds info s vs →
    (vs.map fun v => (info v).name).Nodup → ws ≠ [] → ws.Nodup → (∀ w ∈ ws, w ∈ vs) →
    ∃ t, s.subfield info (ws.map fun w => .name (info w).name) = .ok t ∧ Spec.Holds info t ws) ∧
  (∀ (info : ℕ → VarInfo) (s : FieldState) (vs : List ℕ) (w : ℕ), Spec.Holds info s vs →
    (vs.map fun v => (info v).name).Nodup → w ∉ vs → Raises (s.subfield info [.var w])) ∧
  (∀ (info : ℕ → VarInfo) (a b : FieldObj) (vs ws : List ℕ), Spec.Holds info a.state vs →
    Spec.Holds info b.state ws → (a.eq b = true ↔ ∀ v, v ∈ vs ↔ v ∈ ws)) ∧
  (∀ a b : FieldObj, a.ne b = !a.eq b)

/-- C98: the subfield of members that are not random, given by name or as variables, has these, in
the order asked for.  Missing: random variables. -/
theorem C98_subfield_partial (info : ℕ → VarInfo) (s : FieldState) (vs ws : List ℕ)
    (hh : Spec.Holds info s vs) (hn : (vs.map fun v => (info v).name).Nodup) (hne : ws ≠ [])
    (hnd : ws.Nodup) (hw : ∀ w ∈ ws, w ∈ vs) (hst : ∀ w ∈ ws, (info w).stoch = false) :
    ∃ t, s.subfield info (ws.map fun w => .name (info w).name) = .ok t ∧
      s.subfield info (ws.map .var) = .ok t ∧ Spec.Holds info t ws := by
  have hinj : (ws.map fun v => (info v).name).Nodup := by
    refine (List.nodup_map_iff_inj_on hnd).mpr ?_
    intro a ha b hb e
    exact List.inj_on_of_nodup_map hn (hw a ha) (hw b hb) e
  obtain ⟨t, ht, ht', -⟩ := C44_build_partial info false ws hne
    (fun v hv h => by rw [hst v hv] at h; cases h) hnd hinj
  refine ⟨t, ?_, ?_, ht'⟩
  · simp only [FieldState.subfield, vertex_names info s vs hh hn ws hw, bind, Except.bind, ht]
  · simp only [FieldState.subfield, vertex_vars, bind, Except.bind, ht]

/-- C98: a name that is not in the field is a KeyError. -/
theorem C98_subfield_unknown (info : ℕ → VarInfo) (s : FieldState) (vs ws : List ℕ)
    (hh : Spec.Holds info s vs) (hn : (vs.map fun v => (info v).name).Nodup) (hw : ∀ w ∈ ws, w ∈ vs)
    (n : Str) (hx : ∀ v ∈ vs, (info v).name ≠ n) (rest : List Vertex) :
    s.subfield info ((ws.map fun w => .name (info w).name) ++ .name n :: rest) = .error .key := by
  have hg : s.vars.get? n = none := by
    rw [Dict.get?_eq_none, hh.keys]
    intro h
    obtain ⟨v, hv, e⟩ := List.mem_map.mp h
    exact hx v hv e
  simp only [FieldState.subfield, List.mapM_append, List.mapM_cons, vertex_names info s vs hh hn ws hw,
    FieldState.vertex, hg, bind, Except.bind]

/-- C98: no subfield of a random field can be had: a random variable among those asked for is an
AssertionError. -/
theorem C98_subfield_random_refused (info : ℕ → VarInfo) (s : FieldState) (vs ws : List ℕ)
    (hh : Spec.Holds info s vs) (hn : (vs.map fun v => (info v).name).Nodup) (hnd : ws.Nodup)
    (hw : ∀ w ∈ ws, w ∈ vs) (w : ℕ) (hm : w ∈ ws) (hst : (info w).stoch = true) :
    s.subfield info (ws.map fun w => .name (info w).name) = .error .assertion := by
  have hinj : (ws.map fun v => (info v).name).Nodup := by
    refine (List.nodup_map_iff_inj_on hnd).mpr ?_
    intro a ha b hb e
    exact List.inj_on_of_nodup_map hn (hw a ha) (hw b hb) e
  have hv : Dict.ofUpdates (ws.map fun v => ((info v).name, v)) = ws.map fun v => ((info v).name, v) := by
    apply Dict.ofUpdates_of_nodup
    simpa [List.map_map, Function.comp_def] using hinj
  have hr : (refresh info false ws).2 = false := by
    simp only [refresh, hv, Bool.false_or, Bool.not_eq_false', List.any_eq_true, Dict.vals]
    exact ⟨w, by simpa using hm, hst⟩
  have hmk : (mkField info false ws).2 = some .assertion := by
    match ws, hm with
    | [v], _ => simp [mkField, addVar, addLoop, FieldState.empty, addNode, hr]
    | v :: u :: us, _ =>
      simp only [mkField, addVar, FieldState.empty, addLoop_zero]
      rw [foldl_addNode_nodup _ [] (by simpa using hnd)]
      obtain ⟨x, hx⟩ : ∃ x, (v :: u :: us).getLast? = some x :=
        ⟨_, List.getLast?_eq_some_getLast (by simp)⟩
      have hadd : addNode (v :: u :: us) x = v :: u :: us := if_pos (List.mem_of_getLast? hx)
      simp only [List.nil_append, hx, hadd, hr]
      simp
  obtain ⟨t, e, h⟩ : ∃ t e, mkField info false ws = (t, e) := ⟨_, _, rfl⟩
  rw [h] at hmk
  simp only at hmk
  subst hmk
  simp only [FieldState.subfield, vertex_names info s vs hh hn ws hw, bind, Except.bind, h]

/-- C98: a field given as a vertex is an AttributeError, whatever the field. -/
theorem C98_subfield_field_refused (info : ℕ → VarInfo) (s : FieldState) (rest : List Vertex) :
    s.subfield info (.field :: rest) = .error .attribute := by
  simp only [FieldState.subfield, List.mapM_cons, FieldState.vertex, bind, Except.bind]

/-- C98: what is neither a variable, a name nor a field is a TypeError, whatever vertices that are
variables precede it. -/
theorem C98_subfield_other_refused (info : ℕ → VarInfo) (s : FieldState) (ws : List ℕ)
    (rest : List Vertex) : s.subfield info (ws.map Vertex.var ++ .other :: rest) = .error .type := by
  have : (ws.map Vertex.var ++ .other :: rest).mapM s.vertex = .error .type := by
    induction ws with
    | nil => simp only [List.map_nil, List.nil_append, List.mapM_cons, FieldState.vertex, bind, Except.bind]
    | cons w ws ih =>
        simp only [List.map_cons, List.cons_append, List.mapM_cons, FieldState.vertex, ih, bind, Except.bind]
  simp only [FieldState.subfield, this, bind, Except.bind]

/-- C98: a variable that is no member is accepted. -/
theorem C98_stranger (info : ℕ → VarInfo) (s : FieldState) (w : ℕ) (hst : (info w).stoch = false) :
    ∃ t, s.subfield info [.var w] = .ok t ∧ Spec.Holds info t [w] := by
  obtain ⟨t, ht, ht', -⟩ := C44_build_partial info false [w] (by simp)
    (fun v hv h => by rw [List.mem_singleton.mp hv, hst] at h; cases h) (by simp) (by simp)
  exact ⟨t, by simp only [FieldState.subfield, List.mapM_cons, List.mapM_nil, FieldState.vertex, bind,
    Except.bind, pure, Except.pure, ht], ht'⟩

/-! ### Equality -/

theorem sameKeyset_iff (s t : FieldState) : sameKeyset s t = true ↔ ∀ n, n ∈ s.vars.keys ↔ n ∈ t.vars.keys := by
  simp only [sameKeyset, Bool.and_eq_true, List.all_eq_true, decide_eq_true_eq]
  exact ⟨fun h n => ⟨h.1 n, h.2 n⟩, fun h => ⟨fun n => (h n).mp, fun n => (h n).mpr⟩⟩

/-- C98: two fields (or two random fields) whose variables are told apart by their names are equal
exactly if they have the same variables, in any order, and unequal otherwise.  Missing: variables
of the same name; other classes. -/
theorem C98_equal_partial (info : ℕ → VarInfo) (a b : FieldObj) (vs ws : List ℕ)
    (ha : Spec.Holds info a.state vs) (hb : Spec.Holds info b.state ws)
    (hc : (a.cls = .field ∧ b.cls = .field) ∨ (a.cls = .rf ∧ b.cls = .rf))
    (hn : ∀ v ∈ vs, ∀ w ∈ ws, (info v).name = (info w).name → v = w) :
    (a.eq b = true ↔ ∀ v, v ∈ vs ↔ v ∈ ws) ∧ a.ne b = !a.eq b := by
  have he : a.eqMethod b = some (sameKeyset a.state b.state) := if_pos hc
  refine ⟨?_, by simp only [FieldObj.ne, FieldObj.eq, he]⟩
  simp only [FieldObj.eq, he]
  rw [sameKeyset_iff, ha.keys, hb.keys]
  constructor
  · intro h v
    constructor
    · intro hv
      obtain ⟨w, hw, e⟩ := List.mem_map.mp ((h _).mp (List.mem_map.mpr ⟨v, hv, rfl⟩))
      rwa [hn v hv w hw e.symm]
    · intro hv
      obtain ⟨w, hw, e⟩ := List.mem_map.mp ((h _).mpr (List.mem_map.mpr ⟨v, hv, rfl⟩))
      rwa [← hn w hw v hv e]
  · intro h n
    simp only [List.mem_map]
    exact ⟨fun ⟨v, hv, e⟩ => ⟨v, (h v).mp hv, e⟩, fun ⟨v, hv, e⟩ => ⟨v, (h v).mpr hv, e⟩⟩

/-- C98: the subfield of all the variables of a field that is not random, in any order, equals the
field. -/
theorem C98_whole_partial (info : ℕ → VarInfo) (a : FieldObj) (vs ws : List ℕ) (i : ℕ)
    (ha : Spec.Holds info a.state vs) (hc : a.cls = .field)
    (hn : (vs.map fun v => (info v).name).Nodup) (hne : vs ≠ []) (hp : ws.Perm vs)
    (hst : ∀ v ∈ vs, (info v).stoch = false) :
    ∃ t, a.state.subfield info (ws.map fun w => .name (info w).name) = .ok t ∧
      a.eq ⟨i, .field, t⟩ = true := by
  obtain ⟨t, h1, -, h3⟩ := C98_subfield_partial info a.state vs ws ha hn
    (fun h => hne (by simpa [h] using hp.symm)) (hp.nodup_iff.mpr hn.of_map)
    (fun w hw => hp.mem_iff.mp hw) (fun w hw => hst w (hp.mem_iff.mp hw))
  refine ⟨t, h1, (C98_equal_partial info a ⟨i, .field, t⟩ vs ws ha h3 (Or.inl ⟨hc, rfl⟩) ?_).1.mpr ?_⟩
  · intro v hv w hw e
    exact List.inj_on_of_nodup_map hn hv (hp.mem_iff.mp hw) e
  · intro v
    exact hp.mem_iff.symm

/-- C98: two different processes (or dependences, or a field and a random field) are neither equal
nor unequal. -/
theorem C98_neither (a b : FieldObj) (hid : a.ident ≠ b.ident)
    (hc : ¬ ((a.cls = .field ∧ b.cls = .field) ∨ (a.cls = .rf ∧ b.cls = .rf))) :
    a.eq b = false ∧ a.ne b = false := by
  have h1 : a.eqMethod b = none := by simp only [FieldObj.eqMethod, if_neg hc, if_neg hid]
  have h2 : b.eqMethod a = none := by
    simp only [FieldObj.eqMethod, if_neg (Ne.symm hid)]
    exact if_neg fun h => hc (h.imp (fun x => ⟨x.2, x.1⟩) fun x => ⟨x.2, x.1⟩)
  simp [FieldObj.eq, FieldObj.ne, h1, h2, hid]

/-- C98: two fields of different variables with the same names are equal. -/
theorem C98_namesakes (info : ℕ → VarInfo) (a b : FieldObj) (vs ws : List ℕ)
    (ha : Spec.Holds info a.state vs) (hb : Spec.Holds info b.state ws)
    (hc : a.cls = .field ∧ b.cls = .field)
    (hn : (vs.map fun v => (info v).name) = ws.map fun v => (info v).name) : a.eq b = true := by
  have he : a.eqMethod b = some (sameKeyset a.state b.state) := if_pos (Or.inl hc)
  simp only [FieldObj.eq, he]
  rw [sameKeyset_iff, ha.keys, hb.keys, hn]
  exact fun _ => Iff.rfl

/-- The claim fails: a variable that is no member is accepted.  Its other parts fail as well
(`C98_subfield_random_refused`, `C98_namesakes`, `C98_neither`). -/
theorem C98_claim_fails : ¬ C98_claim := by
  rintro ⟨-, h, -, -⟩
  obtain ⟨t, ht, -⟩ := C98_stranger (fun v => ⟨List.replicate v 'x', false⟩) ⟨[1], 1, [(['x'], 1)]⟩ 2 rfl
  obtain ⟨e, he⟩ := h (fun v => ⟨List.replicate v 'x', false⟩) ⟨[1], 1, [(['x'], 1)]⟩ [1] 2
    ⟨rfl, rfl, rfl⟩ (by simp) (by simp)
  rw [ht] at he
  cases he

/-- The names of a text with spaces after the commas are refused. -/
theorem C98_spaces_refused (ident : Str → Bool) (hid : ∀ n, ident (' ' :: n) = false) (m n : Str)
    (hm : ',' ∉ m) (hn : ',' ∉ n) : Raises (makeNames ident (.text (m ++ ',' :: ' ' :: n))) := by
  have hs : (m ++ ',' :: ' ' :: n).splitOn ',' = [m, ' ' :: n] := by
    rw [List.splitOn_append_cons_self_of_not_mem hm, List.splitOn_eq_singleton (by simpa using hn)]
  refine ⟨.value, ?_⟩
  simp only [makeNames, hs, List.mapM_cons, hid]
  cases ident m <;> simp [bind, Except.bind]

/-! ### Non-vacuity: a field of x, y and z -/

def xyzInfo : ℕ → VarInfo := fun v => ⟨[['x'], ['y'], ['z']].getD v ['w'], false⟩

example : ∃ s, mkField xyzInfo false [2, 0, 1] = (s, none) ∧ s.getitem (.int (-1)) = .ok (some 1) ∧
    s.getitem (.str ['z']) = .ok (some 2) ∧ s.getitem (.str ['w']) = .ok none ∧
    s.getitem (.int 3) = .error .index ∧ s.name = ['z', ',', 'x', ',', 'y'] ∧
    ∃ t, s.subfield xyzInfo [.name ['x'], .name ['z']] = .ok t ∧ Spec.Holds xyzInfo t [0, 2] :=
  ⟨_, rfl, rfl, rfl, rfl, rfl, rfl, _, rfl, rfl, rfl, rfl⟩

example : (FieldObj.mk 7 .field (mkField xyzInfo false [0, 1]).1).eq
    ⟨8, .field, (mkField xyzInfo false [1, 0]).1⟩ = true := rfl

end Probayes
