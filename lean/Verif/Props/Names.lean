/-
Properties C14 (names), C28 (renaming dictionaries) and C51 (suffixes).
-/
import Verif.Model.Names

namespace Probayes

/-! ### C14 names -/

/-- A well-formed entry: the text of a variable, optionally followed by `=value`,
without separators or parentheses. -/
structure Spec.Entry (k s : Str) : Prop where
  nonempty : s ≠ []
  comma : ',' ∉ s
  bar : '|' ∉ s
  lparen : '(' ∉ s
  rparen : ')' ∉ s
  key : (∃ v, s = k ++ '=' :: v) ∧ k ≠ [] ∧ '=' ∉ k ∨ s = k ∧ ('=' ∉ k ∨ k.head? = some '=')

/-- A well-formed side of a name: distinct keys, well-formed entries. -/
def Spec.Side (d : Dict Str Str) : Prop := d.keys.Nodup ∧ ∀ kv ∈ d, Spec.Entry kv.1 kv.2

theorem findChar_none {s : Str} {c : Char} (h : c ∉ s) : findChar s c = none := by
  simp [findChar, List.findIdx?_eq_none_iff]
  intro x hx hc
  exact h (hc ▸ hx)

theorem findChar_append {k v : Str} {c : Char} (h : c ∉ k) :
    findChar (k ++ c :: v) c = some k.length := by
  unfold findChar
  induction k with
  | nil => simp [List.findIdx?_cons]
  | cons x k ih =>
    simp only [List.mem_cons, not_or] at h
    simp [List.findIdx?_cons, Ne.symm h.1, ih h.2]

theorem str2key_entry {k s : Str} (h : Spec.Entry k s) : str2key s = k := by
  rcases h.key with ⟨⟨v, rfl⟩, hk, he⟩ | ⟨rfl, he | he⟩
  · have : 0 < k.length := List.length_pos_of_ne_nil hk
    simp [str2key, findChar_append he, this]
  · simp [str2key, findChar_none he]
  · rcases s with _ | ⟨c, s⟩
    · simp at he
    · simp at he; subst he
      simp [str2key, findChar, List.findIdx?_cons]

theorem splitNames_side (d : Dict Str Str) (h : Spec.Side d) :
    splitNames ([','].intercalate d.vals) = d := by
  obtain ⟨hn, he⟩ := h
  rcases d with _ | ⟨kv, d⟩
  · simp [splitNames, Dict.vals, List.intercalate]
  · have hne : Dict.vals (kv :: d) ≠ [] := by simp [Dict.vals]
    have hj : [','].intercalate (Dict.vals (kv :: d)) ≠ [] := by
      intro hc
      have h1 := (he kv (by simp)).nonempty
      rcases d with _ | ⟨kv', d⟩ <;> simp_all [Dict.vals, List.intercalate]
    rw [splitNames, if_neg hj, List.splitOn_intercalate _ _ hne]
    · have : (Dict.vals (kv :: d)).map (fun t => (str2key t, t)) = kv :: d := by
        unfold Dict.vals
        rw [List.map_map]
        conv_rhs => rw [← List.map_id (kv :: d)]
        apply List.map_congr_left
        intro a ha
        simp [str2key_entry (he a ha)]
      rw [this]
      exact Dict.ofUpdates_of_nodup hn
    · intro l hl
      obtain ⟨a, ha, rfl⟩ := List.mem_map.mp hl
      exact (he a ha).comma

theorem notMem_intercalate {c : Char} (hc : c ≠ ',') (l : List Str) (h : ∀ s ∈ l, c ∉ s) :
    c ∉ [','].intercalate l := by
  induction l with
  | nil => simp [List.intercalate]
  | cons s l ih =>
    have h1 := h s (by simp)
    have h2 := ih (fun t ht => h t (by simp [ht]))
    rcases l with _ | ⟨t, l⟩
    · simpa [List.intercalate] using h1
    · have : [','].intercalate (s :: t :: l) = s ++ ',' :: [','].intercalate (t :: l) := by
        simp [List.intercalate]
      rw [this]
      simp only [List.mem_append, List.mem_cons, not_or]
      exact ⟨h1, hc, h2⟩

theorem side_chars (d : Dict Str Str) (h : Spec.Side d) :
    '|' ∉ [','].intercalate d.vals ∧ '(' ∉ [','].intercalate d.vals ∧
      ')' ∉ [','].intercalate d.vals := by
  refine ⟨notMem_intercalate (by decide) _ ?_, notMem_intercalate (by decide) _ ?_,
    notMem_intercalate (by decide) _ ?_⟩ <;>
  · intro s hs
    obtain ⟨a, ha, rfl⟩ := List.mem_map.mp hs
    first
      | exact (h.2 a ha).bar
      | exact (h.2 a ha).lparen
      | exact (h.2 a ha).rparen

/-- C14: rendering marginal and conditional dictionaries and parsing the name
gives them back, for any number of well-formed entries (including none). -/
theorem C14_render_parse (marg cond : Dict Str Str) (hm : Spec.Side marg) (hc : Spec.Side cond) :
    strMargcond (margcondStr marg cond) = .ok (marg, cond) := by
  obtain ⟨m1, m2, m3⟩ := side_chars marg hm
  obtain ⟨c1, c2, c3⟩ := side_chars cond hc
  have hsm := splitNames_side marg hm
  have hsc := splitNames_side cond hc
  unfold margcondStr
  simp only
  by_cases hce : [','].intercalate cond.vals = []
  · rw [if_pos hce]
    have hcond : cond = [] := by rw [← hsc, hce]; rfl
    subst hcond
    by_cases hme : [','].intercalate marg.vals = []
    · have : marg = [] := by rw [← hsm, hme]; rfl
      subst this; rfl
    · simp [strMargcond, hme, findChar_none m2, findChar_none m3, m1, hsm, bind, Except.bind, pure,
        Except.pure]
  · rw [if_neg hce]
    have p1 : '(' ∉ [','].intercalate marg.vals ++ '|' :: [','].intercalate cond.vals := by
      simp [m2, c2]
    have p2 : ')' ∉ [','].intercalate marg.vals ++ '|' :: [','].intercalate cond.vals := by
      simp [m3, c3]
    have hsplit : ([','].intercalate marg.vals ++ '|' :: [','].intercalate cond.vals).splitOn '|'
        = [[','].intercalate marg.vals, [','].intercalate cond.vals] := by
      rw [List.splitOn_append_cons_self_of_not_mem m1, List.splitOn_eq_singleton c1]
    simp [strMargcond, findChar_none p1, findChar_none p2, hsplit, hsm, hsc, bind, Except.bind,
      pure, Except.pure]

/-- C14 full claim for parsing then rendering: any name that parses is rendered
back unchanged. -/
def C14_parse_render_claim : Prop :=
  ∀ (name : Str) (marg cond : Dict Str Str), strMargcond name = .ok (marg, cond) →
    margcondStr marg cond = name

/-- C14 fails for parsing then rendering: a name giving two values for one
variable is silently collapsed to the last one, ... -/
theorem C14_parse_render_claim_fails : ¬ C14_parse_render_claim := by
  intro h
  have := h "x=1,x=2".toList [("x".toList, "x=2".toList)] [] (by rfl)
  exact absurd this (by decide)

/-- ... and a parenthesised name loses all its variables. -/
theorem C14_parentheses_lost :
    strMargcond "p(x,y|z)".toList = .ok ([], []) ∧
    strMargcond "(x,y|z)".toList = .ok ([("(".toList, "(".toList)], []) := by
  constructor <;> rfl

theorem splitNames_vals (s : Str) (hn : ((s.splitOn ',').map str2key).Nodup) :
    [','].intercalate (splitNames s).vals = s := by
  unfold splitNames
  by_cases hs : s = []
  · subst hs; simp [Dict.vals, List.intercalate]
  · rw [if_neg hs, Dict.ofUpdates_of_nodup (by rw [List.map_map]; exact hn)]
    have : Dict.vals ((s.splitOn ',').map fun t => (str2key t, t)) = s.splitOn ',' := by
      unfold Dict.vals
      rw [List.map_map]
      exact List.map_id _
    rw [this, List.intercalate_splitOn]

/-- C14 for parsing then rendering, what holds: a name without parentheses whose
variables are distinct on each side and whose bar, if any, is followed by a
condition, is rendered back unchanged. -/
theorem C14_parse_render_partial (name : Str) (marg cond : Dict Str Str)
    (h : strMargcond name = .ok (marg, cond)) (h1 : '(' ∉ name) (h2 : ')' ∉ name)
    (hn : ∀ side ∈ name.splitOn '|', ((side.splitOn ',').map str2key).Nodup)
    (hb : name.getLast? ≠ some '|') :
    margcondStr marg cond = name := by
  by_cases he : name = []
  · subst he
    obtain ⟨rfl, rfl⟩ : ([] : Dict Str Str) = marg ∧ ([] : Dict Str Str) = cond := by
      simpa [strMargcond] using h
    rfl
  simp only [strMargcond, if_neg he, findChar_none h1, findChar_none h2, bind, Except.bind, pure,
    Except.pure] at h
  by_cases hbar : '|' ∈ name
  · rw [if_pos hbar] at h
    rcases hs : name.splitOn '|' with _ | ⟨m, _ | ⟨c, _ | ⟨d, t⟩⟩⟩ <;> rw [hs] at h <;>
      simp at h
    obtain ⟨rfl, rfl⟩ := h
    have hname : name = m ++ '|' :: c := by
      have := List.intercalate_splitOn (xs := name) '|'
      rw [hs] at this
      simpa [List.intercalate] using this.symm
    have hm := splitNames_vals m (hn m (by rw [hs]; simp))
    have hc := splitNames_vals c (hn c (by rw [hs]; simp))
    unfold margcondStr
    simp only [hm, hc]
    have hcne : c ≠ [] := by
      rintro rfl
      rw [hname] at hb
      simp at hb
    rw [if_neg hcne, hname]
  · rw [if_neg hbar] at h
    simp at h
    obtain ⟨rfl, rfl⟩ := h
    have hm := splitNames_vals name (hn name (by rw [List.splitOn_eq_singleton hbar]; simp))
    unfold margcondStr
    simp only [hm]
    rfl

/-- Non-vacuity of `C14_render_parse` and `C14_parse_render_partial`. -/
example : strMargcond (margcondStr [("x".toList, "x".toList), ("y".toList, "y=1.5".toList)]
    [("z".toList, "z=[]".toList)]) = .ok ([("x".toList, "x".toList), ("y".toList, "y=1.5".toList)],
    [("z".toList, "z=[]".toList)]) := by
  apply C14_render_parse <;> refine ⟨by decide, fun kv hkv => ?_⟩
  · simp only [List.mem_cons, List.not_mem_nil, or_false] at hkv
    rcases hkv with rfl | rfl
    · exact ⟨by decide, by decide, by decide, by decide, by decide, Or.inr ⟨rfl, Or.inl (by decide)⟩⟩
    · exact ⟨by decide, by decide, by decide, by decide, by decide,
        Or.inl ⟨⟨"1.5".toList, rfl⟩, by decide, by decide⟩⟩
  · simp only [List.mem_cons, List.not_mem_nil, or_false] at hkv
    subst hkv
    exact ⟨by decide, by decide, by decide, by decide, by decide,
      Or.inl ⟨⟨"[]".toList, rfl⟩, by decide, by decide⟩⟩

/-! ### C28 renaming (dictionary part) -/

theorem rekeyStr_entry {k k' s : Str} (h : Spec.Entry k s) :
    (s = k ∧ ('=' ∉ k ∨ k.head? = some '=') → rekeyStr k' s = k') ∧
    (∀ v, s = k ++ '=' :: v → '=' ∉ k → k ≠ [] → rekeyStr k' s = k' ++ '=' :: v) := by
  constructor
  · rintro ⟨rfl, he | he⟩
    · simp [rekeyStr, findChar_none he]
    · rcases s with _ | ⟨c, s⟩
      · simp at he
      · simp at he; subst he; simp [rekeyStr, findChar, List.findIdx?_cons]
  · rintro v rfl he hk
    have : 0 < k.length := List.length_pos_of_ne_nil hk
    simp [rekeyStr, findChar_append he, this]

/-- The renaming a key map stands for. -/
def Spec.rename (keymap : Dict Str Str) (k : Str) : Str := (Dict.get? keymap k).getD k

/-- The text of a renamed entry: the new key, keeping a `=value` part. -/
def Spec.renameText (keymap : Dict Str Str) (k s : Str) : Str :=
  if s = k then Spec.rename keymap k else Spec.rename keymap k ++ s.drop k.length

theorem rekeyDictStep_ok (keymap acc : Dict Str Str) (kv : Str × Str)
    (he : Spec.Entry kv.1 kv.2) (hk : Spec.rename keymap kv.1 ∉ acc.keys) :
    rekeyDictStep keymap acc kv =
      .ok (acc ++ [(Spec.rename keymap kv.1, Spec.renameText keymap kv.1 kv.2)]) := by
  unfold rekeyDictStep
  rcases hg : Dict.get? keymap kv.1 with _ | mk
  · have hr : Spec.rename keymap kv.1 = kv.1 := by simp [Spec.rename, hg]
    rw [hr] at hk
    simp only [Dict.set_of_notMem hk, Spec.renameText, hr]
    rcases he.key with ⟨⟨v, hv⟩, hk1, hk2⟩ | ⟨hv, _⟩
    · simp [hv]
    · simp [hv]
  · have hr : Spec.rename keymap kv.1 = mk := by simp [Spec.rename, hg]
    rw [hr] at hk
    simp only [if_neg hk, Dict.set_of_notMem hk, Spec.renameText, hr]
    rcases he.key with ⟨⟨v, hv⟩, hk1, hk2⟩ | ⟨hv, hk1⟩
    · rw [(rekeyStr_entry he).2 v hv hk2 hk1]; simp [hv]
    · rw [(rekeyStr_entry he).1 ⟨hv, hk1⟩]; simp [hv]

theorem rekeyDict_foldlM (keymap : Dict Str Str) (d : Dict Str Str)
    (he : ∀ kv ∈ d, Spec.Entry kv.1 kv.2) :
    ∀ acc : Dict Str Str, (acc.keys ++ d.keys.map (Spec.rename keymap)).Nodup →
      d.foldlM (rekeyDictStep keymap) acc =
      .ok (acc ++ d.map fun kv => (Spec.rename keymap kv.1, Spec.renameText keymap kv.1 kv.2)) := by
  induction d with
  | nil => intro acc _; simp [pure, Except.pure]
  | cons kv d ih =>
    intro acc h
    have hk : Spec.rename keymap kv.1 ∉ acc.keys := by
      intro hc
      rw [List.nodup_append] at h
      exact h.2.2 _ hc _ (by simp) rfl
    rw [List.foldlM_cons, rekeyDictStep_ok keymap acc kv (he kv (by simp)) hk]
    simp only [bind, Except.bind]
    rw [ih (fun kv' h' => he kv' (by simp [h']))]
    · simp
    · simpa [Dict.keys] using h

/-- C28: renaming without collisions renames every key, keeps order and values:
the entries of a side become exactly the entries with renamed keys. -/
theorem C28_rekeyDict (keymap d : Dict Str Str) (hd : Spec.Side d)
    (hn : (d.keys.map (Spec.rename keymap)).Nodup) :
    rekeyDict d keymap = .ok (d.map fun kv =>
      (Spec.rename keymap kv.1, Spec.renameText keymap kv.1 kv.2)) := by
  simpa [rekeyDict] using rekeyDict_foldlM keymap d hd.2 [] (by simpa using hn)

/-- C28 full claim on merging: a key map that would merge two keys is refused. -/
def C28_merge_claim : Prop :=
  ∀ keymap d : Dict Str Str, d.keys.Nodup → ¬ (d.keys.map (Spec.rename keymap)).Nodup →
    Raises (rekeyDict d keymap)

/-- C28 fails: the check is made only when a renamed key comes after the key it
collides with; renaming x to y in (x, y) silently drops x. -/
theorem C28_merge_claim_fails : ¬ C28_merge_claim := by
  intro h
  obtain ⟨e, he⟩ := h [("x".toList, "y".toList)]
    [("x".toList, "x".toList), ("y".toList, "y".toList)] (by decide) (by decide)
  have : rekeyDict [("x".toList, "x".toList), ("y".toList, "y".toList)]
    [("x".toList, "y".toList)] = .ok [("y".toList, "y".toList)] := by rfl
  rw [this] at he
  simp at he

/-! ### C51 suffixes -/

/-- The keys of `succ` with the suffix attached. -/
def Spec.primed {V : Type _} (d : Dict Str V) : Dict Str V := d.map fun kv => (kv.1 ++ ['\''], kv.2)

/-- An ordinary variable name: not empty and not ending in the suffix. -/
def Spec.Plain (k : Str) : Prop := k ≠ [] ∧ k.getLast? ≠ some '\''

theorem lastChar_plain {k : Str} (h : Spec.Plain k) : ∃ c, lastChar k = .ok c ∧ c ≠ '\'' := by
  obtain ⟨h1, h2⟩ := h
  rcases hl : k.getLast? with _ | c
  · exact absurd (List.getLast?_eq_none_iff.mp hl) h1
  · exact ⟨c, by simp [lastChar, hl], by rw [hl] at h2; simpa using h2⟩

theorem getSuffixed_plain {V : Type _} (d : Dict Str V) (hd : ∀ kv ∈ d, Spec.Plain kv.1)
    (acc : Dict Str V) (e : Dict Str V) :
    (d ++ e).foldlM (fun (acc : Dict Str V) (kv : Str × V) => (do
      let c ← lastChar kv.1
      if c = '\'' then return Dict.set acc kv.1.dropLast kv.2 else return acc : Py _)) acc =
    e.foldlM (fun (acc : Dict Str V) (kv : Str × V) => (do
      let c ← lastChar kv.1
      if c = '\'' then return Dict.set acc kv.1.dropLast kv.2 else return acc : Py _)) acc := by
  induction d with
  | nil => rfl
  | cons kv d ih =>
    obtain ⟨c, hc, hne⟩ := lastChar_plain (hd kv (by simp))
    rw [List.cons_append, List.foldlM_cons]
    simp only [hc, bind, Except.bind, pure, Except.pure, if_neg hne]
    exact ih (fun kv' h => hd kv' (by simp [h]))

theorem getSuffixed_primed {V : Type _} (d : Dict Str V) :
    ∀ acc : Dict Str V, (acc.keys ++ d.keys).Nodup →
    (Spec.primed d).foldlM (fun (acc : Dict Str V) (kv : Str × V) => (do
      let c ← lastChar kv.1
      if c = '\'' then return Dict.set acc kv.1.dropLast kv.2 else return acc : Py _)) acc =
    .ok (acc ++ d) := by
  induction d with
  | nil => intro acc _; simp [Spec.primed, pure, Except.pure]
  | cons kv d ih =>
    intro acc h
    have hk : kv.1 ∉ acc.keys := by
      intro hc
      rw [List.nodup_append] at h
      exact h.2.2 _ hc _ (by simp) rfl
    have hl : lastChar (kv.1 ++ ['\'']) = .ok '\'' := by simp [lastChar]
    unfold Spec.primed at ih ⊢
    rw [List.map_cons, List.foldlM_cons]
    simp only [hl, bind, Except.bind, pure, Except.pure, if_true, List.dropLast_concat]
    rw [Dict.set_of_notMem hk]
    have := ih (acc ++ [(kv.1, kv.2)]) (by simpa [Dict.keys] using h)
    simp only [bind, Except.bind, pure, Except.pure] at this
    rw [this]
    simp

/-- C51: the successor entries of a transition's values are recovered, whatever
predecessor entries come before them. -/
theorem C51_getSuffixed {V : Type _} (pred succ : Dict Str V)
    (hp : ∀ kv ∈ pred, Spec.Plain kv.1) (hs : succ.keys.Nodup) :
    getSuffixed (pred ++ Spec.primed succ) = .ok succ := by
  unfold getSuffixed
  rw [getSuffixed_plain pred hp]
  simpa using getSuffixed_primed succ [] (by simpa using hs)

theorem mapM_lastChar {V : Type _} (d : Dict Str V) (h : ∀ kv ∈ d, kv.1 ≠ []) :
    ∃ ls, d.mapM (fun kv => lastChar kv.1) = .ok ls ∧ ls.map some = d.map (fun kv => kv.1.getLast?) := by
  induction d with
  | nil => exact ⟨[], rfl, rfl⟩
  | cons kv d ih =>
    obtain ⟨ls, h1, h2⟩ := ih (fun kv' h' => h kv' (by simp [h']))
    rcases hl : kv.1.getLast? with _ | c
    · exact absurd (List.getLast?_eq_none_iff.mp hl) (h kv (by simp))
    · refine ⟨c :: ls, ?_, by simp [h2, hl]⟩
      rw [List.mapM_cons]
      have hc : lastChar kv.1 = .ok c := by simp [lastChar, hl]
      simp only [hc, h1, bind, Except.bind, pure, Except.pure]

theorem desuffix_foldlM {V : Type _} (d : Dict Str V) :
    ∀ acc : Dict Str V, (acc.keys ++ d.keys).Nodup →
    (Spec.primed d).foldlM (fun (acc : Dict Str V) (kv : Str × V) =>
      let key := if kv.1.getLast? = some '\'' then kv.1.dropLast else kv.1
      if key ∈ acc.keys then (.error .assertion : Py _)
      else .ok (Dict.set acc key kv.2)) acc = .ok (acc ++ d) := by
  induction d with
  | nil => intro acc _; simp [Spec.primed, pure, Except.pure]
  | cons kv d ih =>
    intro acc h
    have hk : kv.1 ∉ acc.keys := by
      intro hc
      rw [List.nodup_append] at h
      exact h.2.2 _ hc _ (by simp) rfl
    unfold Spec.primed at ih ⊢
    rw [List.map_cons, List.foldlM_cons]
    simp only [List.getLast?_append, List.getLast?_singleton, Option.some_or, if_true,
      List.dropLast_concat, if_neg hk, bind, Except.bind]
    rw [Dict.set_of_notMem hk, ih _ (by simpa [Dict.keys] using h)]
    simp

/-- C51: stripping the suffix from successor values gives the original values. -/
theorem C51_desuffix {V : Type _} (succ : Dict Str V) (hs : succ.keys.Nodup) (hne : succ ≠ []) :
    desuffix (Spec.primed succ) = .ok succ := by
  obtain ⟨ls, h1, h2⟩ := mapM_lastChar (Spec.primed succ) (by
    intro kv hkv
    obtain ⟨a, _, rfl⟩ := List.mem_map.mp hkv
    simp)
  have hmem : '\'' ∈ ls := by
    obtain ⟨a, ha⟩ := List.exists_mem_of_ne_nil _ hne
    have : some '\'' ∈ ls.map some := by
      rw [h2]
      exact List.mem_map.mpr ⟨(a.1 ++ ['\''], a.2), List.mem_map.mpr ⟨a, ha, rfl⟩, by simp⟩
    simpa using this
  unfold desuffix
  simp only [h1, bind, Except.bind, if_pos hmem]
  simpa using desuffix_foldlM succ [] (by simpa using hs)

/-- C51 full claim for values without suffixes: they are returned unchanged. -/
def C51_unsuffixed_claim : Prop :=
  ∀ d : Dict Str ℕ, d.keys.Nodup → (∀ kv ∈ d, Spec.Plain kv.1) → desuffix d = .ok d

/-- C51 fails for values without suffixes: `desuffix` raises TypeError on every
dictionary without a suffixed key. -/
theorem C51_unsuffixed_raises (d : Dict Str ℕ) (hd : ∀ kv ∈ d, Spec.Plain kv.1) :
    desuffix d = .error .type := by
  obtain ⟨ls, h1, h2⟩ := mapM_lastChar d (fun kv h => (hd kv h).1)
  have hmem : '\'' ∉ ls := by
    intro hc
    have : some '\'' ∈ ls.map some := List.mem_map.mpr ⟨_, hc, rfl⟩
    rw [h2] at this
    obtain ⟨a, ha, he⟩ := List.mem_map.mp this
    exact (hd a ha).2 he
  unfold desuffix
  simp only [h1, bind, Except.bind, if_neg hmem]

theorem C51_unsuffixed_claim_fails : ¬ C51_unsuffixed_claim := by
  intro h
  have hp : ∀ kv ∈ ([("x".toList, 1)] : Dict Str ℕ), Spec.Plain kv.1 := by
    intro kv hkv; simp at hkv; subst hkv; exact ⟨by decide, by decide⟩
  have := h [("x".toList, 1)] (by decide) hp
  rw [C51_unsuffixed_raises _ hp] at this
  simp at this

/-- Non-vacuity. -/
example : getSuffixed ([("x".toList, 1)] ++ Spec.primed [("x".toList, 2), ("y".toList, 3)])
    = .ok [("x".toList, 2), ("y".toList, 3)] := by
  apply C51_getSuffixed _ _ _ (by decide)
  intro kv hkv; simp at hkv; subst hkv; exact ⟨by decide, by decide⟩

end Probayes
