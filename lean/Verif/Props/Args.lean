/-
Properties C65 (collating arguments into one dictionary of named values) and C66
(sorting an ordered dictionary).
-/
import Mathlib.Data.List.Sort
import Mathlib.Data.List.Dedup
import Mathlib.Data.List.Perm.Basic
import Mathlib.Tactic.Linarith
import Verif.Model.Args
import Verif.Lemmas.PDBuild

namespace Probayes

namespace Spec

/-- The text of a part of a key: itself, or the name of the object. -/
inductive PartText : SubKey → Str → Prop
  | text (s : Str) : PartText (.text s) s
  | named (s : Str) : PartText (.named (some s)) s

/-- The text of a key: itself, the name of the object, or the texts of the parts
separated by commas. -/
inductive KeyText : ArgKey → Str → Prop
  | text (s : Str) : KeyText (.text s) s
  | obj (p : SubKey) (s : Str) : PartText p s → KeyText (.obj p) s
  | tuple (ps : List SubKey) (ss : List Str) : List.Forall₂ PartText ps ss →
      KeyText (.tuple ps) ([','].intercalate ss)

/-- The items of all arguments in order, with their keys as texts. -/
def Collated {V : Type} (args : List (ArgDict V)) (items : List (Str × V)) : Prop :=
  ∃ ds : List (List (ArgKey × V)), args = ds.map ArgDict.dict ∧
    List.Forall₂ (fun kv tv => KeyText kv.1 tv.1 ∧ kv.2 = tv.2) ds.flatten items

/-- The value given last for a name. -/
def lastGiven {V : Type} (items : List (Str × V)) (name : Str) : Option V :=
  (items.reverse.find? fun kv => decide (kv.1 = name)).map Prod.snd

/-- The names in the order they first appear. -/
def firstSeen {V : Type} (items : List (Str × V)) : List Str :=
  (items.map Prod.fst).reverse.dedup.reverse

end Spec

/-! ### C65 -/

theorem foldl_set_lastGiven {V : Type} (items : List (Str × V)) :
    let r := items.foldl (fun d kv => Dict.set d kv.1 kv.2) ([] : Dict Str V)
    (∀ n, Dict.get? r n = Spec.lastGiven items n) ∧ Dict.keys r = Spec.firstSeen items := by
  induction items using List.reverseRecOn with
  | nil => exact ⟨fun _ => rfl, rfl⟩
  | append_singleton items kv ih =>
    obtain ⟨h1, h2⟩ := ih
    simp only [List.foldl_append, List.foldl_cons, List.foldl_nil]
    refine ⟨fun n => ?_, ?_⟩
    · rw [Dict.get?_set, h1]
      simp only [Spec.lastGiven, List.reverse_append, List.reverse_cons, List.reverse_nil, List.nil_append,
        List.cons_append, List.find?_cons]
      by_cases h : kv.1 = n
      · simp [h]
      · simp [h]
    · rw [Dict.keys_set, h2]
      simp only [Spec.firstSeen, List.map_append, List.map_cons, List.map_nil, List.reverse_append,
        List.reverse_cons, List.reverse_nil, List.nil_append, List.cons_append]
      by_cases h : kv.1 ∈ (items.map Prod.fst).reverse
      · have h' : kv.1 ∈ (items.map Prod.fst).reverse.dedup.reverse := by
          rw [List.mem_reverse, List.mem_dedup]; exact h
        rw [List.dedup_cons_of_mem h]
        simp only [h', if_true]
      · have h' : kv.1 ∉ (items.map Prod.fst).reverse.dedup.reverse := by
          rw [List.mem_reverse, List.mem_dedup]; exact h
        rw [List.dedup_cons_of_notMem h, List.reverse_cons]
        simp only [h', if_false]

theorem name_of_partText {p : SubKey} {s : Str} (h : Spec.PartText p s) : p.name = .ok s := by
  cases h <;> rfl

theorem mapM_partText {ps : List SubKey} {ss : List Str} (h : List.Forall₂ Spec.PartText ps ss) :
    ps.mapM SubKey.name = .ok ss := by
  induction h with
  | nil => rfl
  | cons h _ ih => rw [List.mapM_cons, name_of_partText h, ih]; rfl

theorem text?_of_keyText {k : ArgKey} {s : Str} (h : Spec.KeyText k s) : k.text? = .ok s := by
  cases h with
  | text => rfl
  | obj p s h =>
    rw [ArgKey.text?, List.mapM_cons, name_of_partText h]
    show Except.ok ([','].intercalate [s]) = _
    simp [List.intercalate]
  | tuple ps ss h => rw [ArgKey.text?, mapM_partText h]; rfl

theorem strItem_ok {V : Type} (remap : Dict Str Str) (acc : Dict Str V) {kv : ArgKey × V} {tv : Str × V}
    (h : Spec.KeyText kv.1 tv.1 ∧ kv.2 = tv.2) :
    strItem remap acc kv = .ok (Dict.set acc (remapped remap tv.1) tv.2) := by
  obtain ⟨k, v⟩ := kv
  obtain ⟨t, w⟩ := tv
  obtain ⟨h1, h2⟩ := h
  simp only at h1 h2
  subst h2
  have ht := text?_of_keyText h1
  cases h1 with
  | text => rfl
  | obj p s h => simp only [strItem]; rw [ht]; rfl
  | tuple ps ss h => simp only [strItem]; rw [ht]; rfl

theorem items_ok {V : Type} (remap : Dict Str Str) {items : List (ArgKey × V)} {L : List (Str × V)}
    (h : List.Forall₂ (fun kv tv => Spec.KeyText kv.1 tv.1 ∧ kv.2 = tv.2) items L) (acc : Dict Str V) :
    items.foldlM (strItem remap) acc =
      .ok ((L.map fun tv => (remapped remap tv.1, tv.2)).foldl (fun d kv => Dict.set d kv.1 kv.2) acc) := by
  induction h generalizing acc with
  | nil => rfl
  | cons h _ ih =>
    rw [List.foldlM_cons, strItem_ok remap acc h]
    show List.foldlM _ _ _ = _
    rw [ih]
    rfl

theorem strArg_ok {V : Type} (remap : Dict Str Str) {items : List (ArgKey × V)} {L : List (Str × V)}
    (h : List.Forall₂ (fun kv tv => Spec.KeyText kv.1 tv.1 ∧ kv.2 = tv.2) items L) (acc : Dict Str V) :
    strArg remap acc (.dict items) =
      .ok ((L.map fun tv => (remapped remap tv.1, tv.2)).foldl (fun d kv => Dict.set d kv.1 kv.2) acc) := by
  rw [strArg]
  split
  · rename_i hc
    simp only [Bool.and_eq_true, List.isEmpty_iff, List.all_eq_true] at hc
    obtain ⟨rfl, hall⟩ := hc
    congr 2
    induction h with
    | nil => rfl
    | @cons kv tv items L h _ ih =>
      rw [List.map_cons, List.map_cons, ih (fun kv hkv => hall kv (by simp [hkv]))]
      congr 1
      obtain ⟨h1, h2⟩ := h
      have := hall kv (by simp)
      obtain ⟨k, v⟩ := kv
      cases k with
      | text s => cases h1; exact Prod.ext rfl h2
      | tuple ps => cases this
      | obj p => cases this
  · exact items_ok remap h acc

theorem args_ok {V : Type} (remap : Dict Str Str) (ds : List (List (ArgKey × V))) (L : List (Str × V))
    (h : List.Forall₂ (fun kv tv => Spec.KeyText kv.1 tv.1 ∧ kv.2 = tv.2) ds.flatten L) (acc : Dict Str V) :
    (ds.map ArgDict.dict).foldlM (strArg remap) acc =
      .ok ((L.map fun tv => (remapped remap tv.1, tv.2)).foldl (fun d kv => Dict.set d kv.1 kv.2) acc) := by
  induction ds generalizing L acc with
  | nil => cases h; rfl
  | cons d ds ih =>
    rw [List.flatten_cons] at h
    have hlen := h.length_eq
    rw [List.length_append] at hlen
    have h1 : List.Forall₂ (fun kv tv => Spec.KeyText kv.1 tv.1 ∧ kv.2 = tv.2) d (L.take d.length) := by
      have := List.forall₂_take d.length h
      rwa [List.take_left'  rfl] at this
    have h2 : List.Forall₂ (fun kv tv => Spec.KeyText kv.1 tv.1 ∧ kv.2 = tv.2) ds.flatten (L.drop d.length) := by
      have := List.forall₂_drop d.length h
      rwa [List.drop_left' rfl] at this
    rw [List.map_cons, List.foldlM_cons, strArg_ok remap h1]
    show List.foldlM _ _ _ = _
    rw [ih _ h2]
    conv_rhs => rw [← List.take_append_drop d.length L, List.map_append, List.foldl_append]

/-- C65, for items of dictionaries (missing: renaming of keywords, see
`C65_claim`): the result has every name given once, in the order of first
appearance, with the value given last; keys of the dictionaries count by their
texts, replaced as `remap` says, and keywords come after all dictionaries. -/
theorem C65_collated_partial {V : Type} (args : List (ArgDict V)) (kwds : Dict Str V) (remap : Dict Str Str)
    (items : List (Str × V)) (h : Spec.Collated args items) (hk : kwds.keys.Nodup) :
    ∃ r, parseAsStrDict args kwds remap = .ok r ∧
      (∀ n, Dict.get? r n =
        Spec.lastGiven ((items.map fun tv => ((Dict.get? remap tv.1).getD tv.1, tv.2)) ++ kwds) n) ∧
      r.keys = Spec.firstSeen ((items.map fun tv => ((Dict.get? remap tv.1).getD tv.1, tv.2)) ++ kwds) := by
  have key := foldl_set_lastGiven ((items.map fun tv => ((Dict.get? remap tv.1).getD tv.1, tv.2)) ++ kwds)
  obtain ⟨ds, rfl, hds⟩ := h
  rcases ds with _ | ⟨d, ds⟩
  · cases hds
    refine ⟨kwds, rfl, ?_⟩
    have : (([] : List (Str × V)).map (fun tv => ((Dict.get? remap tv.1).getD tv.1, tv.2)) ++ kwds).foldl
        (fun d kv => Dict.set d kv.1 kv.2) ([] : Dict Str V) = kwds := Dict.ofUpdates_of_nodup hk
    simp only [this] at key
    exact key
  · refine ⟨_, ?_, key⟩
    rw [parseAsStrDict, if_neg (by simp), args_ok remap _ items hds]
    show Except.ok _ = _
    rw [List.foldl_append]
    rfl

/-- C65 full claim: keywords are renamed as well. -/
def C65_claim : Prop :=
  ∀ (kwds : Dict Str ℕ) (remap : Dict Str Str) (args : List (ArgDict ℕ)) (items : List (Str × ℕ)),
    Spec.Collated args items → kwds.keys.Nodup → ∀ r, parseAsStrDict args kwds remap = .ok r →
      ∀ n, Dict.get? r n =
        Spec.lastGiven ((items ++ kwds).map fun tv => ((Dict.get? remap tv.1).getD tv.1, tv.2)) n

/-- The full claim fails: a keyword keeps its name. -/
theorem C65_claim_fails : ¬ C65_claim := by
  intro h
  have := h [(['x'], 1)] [(['x'], ['y'])] [] [] ⟨[], rfl, List.Forall₂.nil⟩ (by simp [Dict.keys]) _ rfl ['y']
  simp [Dict.get?, Spec.lastGiven] at this

/-- C65: keywords are never renamed, with or without dictionaries. -/
theorem C65_keywords_kept {V : Type} (args : List (ArgDict V)) (kwds : Dict Str V) (remap : Dict Str Str)
    (hk : kwds.keys.Nodup) (n : Str) (v : V) (hn : (n, v) ∈ kwds) (r : Dict Str V)
    (h : parseAsStrDict args kwds remap = .ok r) : Dict.get? r n = some v := by
  have aux : ∀ (l : Dict Str V) (d : Dict Str V), l.keys.Nodup → (n, v) ∈ l →
      Dict.get? (l.foldl (fun d kv => Dict.set d kv.1 kv.2) d) n = some v := by
    intro l
    induction l using List.reverseRecOn with
    | nil => intro d _ h; simp at h
    | append_singleton l kv ih =>
      intro d hnd hm
      rw [List.foldl_append, List.foldl_cons, List.foldl_nil, Dict.get?_set]
      rw [Dict.keys_append, List.nodup_append] at hnd
      by_cases hkv : kv.1 = n
      · rw [if_pos hkv]
        rcases List.mem_append.mp hm with hm | hm
        · exact absurd hkv.symm (hnd.2.2 n (List.mem_map.mpr ⟨_, hm, rfl⟩) kv.1 (by simp [Dict.keys]))
        · simp only [List.mem_singleton] at hm
          rw [← hm]
      · rw [if_neg hkv]
        refine ih d hnd.1 ?_
        rcases List.mem_append.mp hm with hm | hm
        · exact hm
        · simp only [List.mem_singleton] at hm
          rw [← hm] at hkv
          exact absurd rfl hkv
  rw [parseAsStrDict] at h
  split at h
  · cases h
    exact Dict.get?_of_mem hk hn
  · cases hd : args.foldlM (strArg remap) [] with
    | error e => rw [hd] at h; cases h
    | ok d =>
      rw [hd] at h
      cases h
      exact aux kwds d hk hn

/-- C65: arguments that are not dictionaries, and keys without text, are refused. -/
theorem C65_refused {V : Type} (args : List (ArgDict V)) (kwds : Dict Str V) (remap : Dict Str Str)
    (h : ArgDict.other ∈ args ∨ ∃ items kv, ArgDict.dict items ∈ args ∧ kv ∈ items ∧ ∀ s, ¬ Spec.KeyText kv.1 s) :
    Raises (parseAsStrDict args kwds remap) := by
  have partName : ∀ p : SubKey, ∀ s, p.name = .ok s → Spec.PartText p s := by
    intro p s hp
    cases p with
    | text t => cases hp; exact .text _
    | named o => cases o with
      | none => cases hp
      | some t => cases hp; exact .named _
    | other => cases hp
  have partsName : ∀ (ps : List SubKey) ss, ps.mapM SubKey.name = .ok ss → List.Forall₂ Spec.PartText ps ss := by
    intro ps
    induction ps with
    | nil => intro ss hs; cases hs; exact .nil
    | cons p ps ih =>
      intro ss hs
      rw [List.mapM_cons] at hs
      cases hp : p.name with
      | error e => rw [hp] at hs; cases hs
      | ok s =>
        rw [hp] at hs
        cases hps : ps.mapM SubKey.name with
        | error e =>
          rw [hps] at hs; cases hs
        | ok ss' =>
          rw [hps] at hs
          cases hs
          exact .cons (partName p s hp) (ih ss' hps)
  have keyName : ∀ (k : ArgKey) s, k.text? = .ok s → Spec.KeyText k s := by
    intro k s hk
    cases k with
    | text t => cases hk; exact .text _
    | obj p =>
      rw [ArgKey.text?] at hk
      cases hps : [p].mapM SubKey.name with
      | error e => rw [hps] at hk; cases hk
      | ok ss =>
        rw [hps] at hk
        cases hk
        have := partsName [p] ss hps
        cases this with
        | cons h1 h2 =>
          cases h2
          rename_i t
          have hj : [','].intercalate [t] = t := by simp [List.intercalate]
          rw [hj]
          exact .obj p t h1
    | tuple ps =>
      rw [ArgKey.text?] at hk
      cases hps : ps.mapM SubKey.name with
      | error e => rw [hps] at hk; cases hk
      | ok ss =>
        rw [hps] at hk
        cases hk
        exact .tuple ps ss (partsName ps ss hps)
  have itemsR : ∀ (items : List (ArgKey × V)) (acc : Dict Str V), (∃ kv ∈ items, ∀ s, ¬ Spec.KeyText kv.1 s) →
      Raises (items.foldlM (strItem remap) acc) := by
    intro items
    induction items with
    | nil => rintro acc ⟨_, h, _⟩; simp at h
    | cons kv items ih =>
      rintro acc ⟨kv', hm, hno⟩
      rw [List.foldlM_cons]
      cases hs : strItem remap acc kv with
      | error e => exact ⟨e, rfl⟩
      | ok acc' =>
        refine ih acc' ?_
        rcases List.mem_cons.mp hm with rfl | hm
        · exfalso
          obtain ⟨k, v⟩ := kv'
          cases k with
          | text s => exact hno s (.text s)
          | obj p =>
            simp only [strItem] at hs
            cases ht : (ArgKey.obj p).text? with
            | error e => rw [ht] at hs; cases hs
            | ok s => exact hno s (keyName _ s ht)
          | tuple ps =>
            simp only [strItem] at hs
            cases ht : (ArgKey.tuple ps).text? with
            | error e => rw [ht] at hs; cases hs
            | ok s => exact hno s (keyName _ s ht)
        · exact ⟨kv', hm, hno⟩
  have argR : ∀ (args : List (ArgDict V)) (acc : Dict Str V), (ArgDict.other ∈ args ∨
      ∃ items kv, ArgDict.dict items ∈ args ∧ kv ∈ items ∧ ∀ s, ¬ Spec.KeyText kv.1 s) →
      Raises (args.foldlM (strArg remap) acc) := by
    intro args
    induction args with
    | nil => rintro acc (h | ⟨_, _, h, _⟩) <;> simp at h
    | cons a args ih =>
      intro acc h
      rw [List.foldlM_cons]
      cases hs : strArg remap acc a with
      | error e => exact ⟨e, rfl⟩
      | ok acc' =>
        refine ih acc' ?_
        rcases h with h | ⟨items, kv, h1, h2, h3⟩
        · rcases List.mem_cons.mp h with rfl | h
          · cases hs
          · exact Or.inl h
        · rcases List.mem_cons.mp h1 with rfl | h1
          · exfalso
            rw [strArg] at hs
            split at hs
            · rename_i hc
              simp only [Bool.and_eq_true, List.all_eq_true] at hc
              have := hc.2 kv h2
              obtain ⟨k, v⟩ := kv
              cases k with
              | text s => exact h3 s (.text s)
              | tuple ps => cases this
              | obj p => cases this
            · obtain ⟨e, he⟩ := itemsR items acc ⟨kv, h2, h3⟩
              rw [he] at hs; cases hs
          · exact Or.inr ⟨items, kv, h1, h2, h3⟩
  rw [parseAsStrDict]
  split
  · rename_i he
    rw [List.isEmpty_iff] at he
    subst he
    rcases h with h | ⟨_, _, h, _⟩ <;> simp at h
  · obtain ⟨e, he⟩ := argR args [] h
    rw [he]
    exact ⟨e, rfl⟩

/-- Non-vacuity: a variable object, a pair of names and a plain name. -/
example : Spec.Collated
    [.dict [(.obj (.named (some ['x'])), 1), (.tuple [.text ['y'], .named (some ['z'])], 2)], .dict [(.text ['x'], 3)]]
    [(['x'], 1), (['y', ',', 'z'], 2), (['x'], 3)] := by
  refine ⟨[[(.obj (.named (some ['x'])), 1), (.tuple [.text ['y'], .named (some ['z'])], 2)], [(.text ['x'], 3)]], rfl, ?_⟩
  refine .cons ⟨.obj _ _ (.named _), rfl⟩ (.cons ⟨?_, rfl⟩ (.cons ⟨.text _, rfl⟩ .nil))
  exact .tuple _ [['y'], ['z']] (.cons (.text _) (.cons (.named _) .nil))

/-- Non-vacuity: a key that is an object without name. -/
example : ∀ s, ¬ Spec.KeyText (.tuple [.text ['y'], .other]) s := by
  intro s h
  cases h with
  | tuple ps ss h =>
    cases h with
    | cons _ h2 => cases h2 with
      | cons h3 _ => cases h3

/-! ### C66 -/

namespace Spec

/-- `np.argsort`: positions, each once, that put the numbers in order. -/
def ArgsortR (argsort : List ℝ → List ℕ) : Prop :=
  ∀ l, (argsort l).Perm (List.range l.length) ∧ ((argsort l).filterMap (l[·]?)).Pairwise (· ≤ ·)

/-- The order given for every key of a dictionary, as a list or a dictionary. -/
def OrderOf (keys : List Str) (o : Str → Option ℝ) : Order → Prop
  | .list l => l = keys.map o
  | .dict d => (∀ k, k ∈ keys ↔ k ∈ d.keys) ∧ ∀ k ∈ keys, Dict.get? d k = some (o k)

end Spec

theorem rising_iff (l : List ℕ) : rising l = true ↔ l.Pairwise (· < ·) := by
  induction l with
  | nil => simp [rising]
  | cons a l ih =>
    rcases l with _ | ⟨b, l⟩
    · simp [rising]
    · rw [rising, Bool.and_eq_true, ih, decide_eq_true_iff, List.pairwise_cons (a := a)]
      constructor
      · rintro ⟨h1, h2⟩
        refine ⟨?_, h2⟩
        intro c hc
        rcases List.mem_cons.mp hc with rfl | hc
        · exact h1
        · exact lt_trans h1 ((List.pairwise_cons.mp h2).1 c hc)
      · rintro ⟨h1, h2⟩
        exact ⟨h1 b (by simp), h2⟩

theorem filterMap_range_getElem? {β : Type _} (l : List β) : (List.range l.length).filterMap (l[·]?) = l := by
  induction l with
  | nil => rfl
  | cons a l ih =>
    rw [List.length_cons, List.range_succ_eq_map, List.filterMap_cons_some (f := fun x => (a :: l)[x]?) (b := a) rfl,
      List.filterMap_map]
    exact congrArg (a :: ·) ih

theorem placeKeys_spec (isNone : Str → Bool) (ks : List Str) :
    ∀ sorted : List Str, (∀ s ∈ sorted, isNone s = false) →
      sorted.length = (ks.filter fun k => !isNone k).length →
      (placeKeys isNone ks sorted).Perm ((ks.filter fun k => isNone k) ++ sorted) ∧
      (∀ (i : ℕ) (k : Str), ks[i]? = some k → isNone k = true → (placeKeys isNone ks sorted)[i]? = some k) ∧
      (placeKeys isNone ks sorted).filter (fun k => !isNone k) = sorted := by
  induction ks with
  | nil =>
    intro sorted _ hl
    simp at hl
    subst hl
    simp [placeKeys]
  | cons k ks ih =>
    intro sorted hs hl
    by_cases hk : isNone k = true
    · rw [List.filter_cons_of_neg (by simp [hk])] at hl
      obtain ⟨h1, h2, h3⟩ := ih sorted hs hl
      have hpk : placeKeys isNone (k :: ks) sorted = k :: placeKeys isNone ks sorted := by simp [placeKeys, hk]
      rw [hpk, List.filter_cons_of_pos (by simpa using hk)]
      refine ⟨h1.cons k, ?_, ?_⟩
      · intro i k' hi hk'
        rcases i with _ | i
        · simpa using hi
        · exact h2 i k' (by simpa using hi) hk'
      · rw [List.filter_cons_of_neg (by simp [hk]), h3]
    · rw [List.filter_cons_of_pos (by simp [hk])] at hl
      rcases sorted with _ | ⟨s, sorted⟩
      · simp at hl
      obtain ⟨h1, h2, h3⟩ := ih sorted (fun x hx => hs x (by simp [hx])) (by simpa using hl)
      have hpk : placeKeys isNone (k :: ks) (s :: sorted) = s :: placeKeys isNone ks sorted := by simp [placeKeys, hk]
      rw [hpk, List.filter_cons_of_neg (by simpa using hk)]
      refine ⟨(h1.cons s).trans List.perm_middle.symm, ?_, ?_⟩
      · intro i k' hi hk'
        rcases i with _ | i
        · simp only [List.getElem?_cons_zero, Option.some.injEq] at hi
          subst hi
          exact absurd hk' hk
        · simpa using h2 i k' (by simpa using hi) hk'
      · rw [List.filter_cons_of_pos (by simp [hs s (by simp)]), h3]

/-- C66: sorting keeps all items; those without order stay where they are, the
others come in increasing order, or decreasing if reversed. -/
theorem C66_sorted {V : Type} (argsort : List ℝ → List ℕ) (ha : Spec.ArgsortR argsort) (d : Dict Str V)
    (hd : d.keys.Nodup) (o : Str → Option ℝ) (order : Order) (ho : Spec.OrderOf d.keys o order) (reverse : Bool) :
    ∃ r, sortOrderedDict argsort d order reverse = .ok r ∧ r.Perm d ∧
      (∀ (i : ℕ) (kv : Str × V), d[i]? = some kv → o kv.1 = none → r[i]? = some kv) ∧
      (r.filterMap fun kv => o kv.1).Pairwise (fun a b => if reverse then b ≤ a else a ≤ b) := by
  -- the order as a dictionary
  obtain ⟨ord, hord, hget⟩ : ∃ ord, order.asDict d.keys = .ok ord ∧ ∀ k ∈ d.keys, Dict.get? ord k = some (o k) := by
    cases order with
    | list l =>
      simp only [Spec.OrderOf] at ho
      subst ho
      refine ⟨d.keys.zip (d.keys.map o), by simp [Order.asDict], ?_⟩
      intro k hk
      apply Dict.get?_of_mem
      · rw [Dict.keys, List.map_fst_zip (by simp)]; exact hd
      · obtain ⟨i, hi, rfl⟩ := List.mem_iff_getElem.mp hk
        exact List.mem_iff_getElem.mpr ⟨i, by simpa using hi, by simp⟩
    | dict od =>
      refine ⟨od, ?_, ho.2⟩
      rw [Order.asDict, if_pos]
      simp only [Bool.and_eq_true, List.all_eq_true, decide_eq_true_iff]
      exact ⟨fun k hk => (ho.1 k).mp hk, fun k hk => (ho.1 k).mpr hk⟩
  set isNone : Str → Bool := fun k => ((Dict.get? ord k).join).isNone with hisNone
  have hnone : ∀ k ∈ d.keys, (isNone k = true ↔ o k = none) := by
    intro k hk
    simp only [hisNone, hget k hk, Option.join_some, Option.isNone_iff_eq_none]
  set notNone := d.keys.filter fun k => !isNone k with hnn
  have hnnmem : ∀ k ∈ notNone, k ∈ d.keys ∧ isNone k = false := by
    intro k hk
    obtain ⟨h1, h2⟩ := List.mem_filter.mp hk
    exact ⟨h1, by simpa using h2⟩
  have hnnd : notNone.Nodup := hd.filter _
  have hvals : (notNone.filterMap fun k => (Dict.get? ord k).join) = notNone.filterMap o := by
    apply List.filterMap_congr
    intro k hk
    rw [hget k (hnnmem k hk).1]
    rfl
  -- values of the orders by position
  have hlenv : ∀ l : List Str, (∀ k ∈ l, k ∈ notNone) → (l.filterMap o).length = l.length ∧
      ∀ i : ℕ, (l.filterMap o)[i]? = (l[i]?).bind o := by
    intro l
    induction l with
    | nil => intro _; simp
    | cons k l ih =>
      intro hl
      obtain ⟨h1, h2⟩ := ih (fun k' hk' => hl k' (by simp [hk']))
      obtain ⟨hk1, hk2⟩ := hnnmem k (hl k (by simp))
      cases hok : o k with
      | none =>
        have := (hnone k hk1).mpr hok
        rw [hk2] at this; cases this
      | some x =>
        rw [List.filterMap_cons_some hok]
        refine ⟨by simp [h1], ?_⟩
        intro i
        rcases i with _ | i
        · simp [hok]
        · simpa using h2 i
  obtain ⟨hvl, hvi⟩ := hlenv notNone (fun _ h => h)
  have hsplit : ∀ l : List (Str × V), (∀ kv ∈ l, kv.1 ∈ d.keys) →
      (l.filterMap fun kv => o kv.1) = ((Dict.keys l).filter fun k => !isNone k).filterMap o := by
    intro l
    induction l with
    | nil => intro _; rfl
    | cons kv l ih =>
      intro hl
      have ih' := ih (fun kv' h => hl kv' (by simp [h]))
      have hk := hl kv (by simp)
      rw [Dict.keys_cons]
      cases hok : o kv.1 with
      | none =>
        rw [List.filterMap_cons_none (f := fun kv : Str × V => o kv.1) hok,
          List.filter_cons_of_neg (by simp [(hnone _ hk).mpr hok]), ih']
      | some x =>
        have : isNone kv.1 = false := by
          by_contra hc
          rw [Bool.not_eq_false] at hc
          rw [(hnone _ hk).mp hc] at hok; cases hok
        rw [List.filterMap_cons_some (f := fun kv : Str × V => o kv.1) hok, List.filter_cons_of_pos (by simp [this]),
          List.filterMap_cons_some hok, ih']
  have hdk : ∀ kv ∈ d, kv.1 ∈ d.keys := fun kv h => List.mem_map.mpr ⟨kv, h, rfl⟩
  rw [sortOrderedDict, hord]
  show ∃ r, (if notNone.length < 2 then _ else _) = _ ∧ _
  split
  · -- nothing to sort
    rename_i hlt
    refine ⟨d, rfl, List.Perm.refl d, fun _ _ h _ => h, ?_⟩
    rw [hsplit d hdk, ← hnn]
    have : (notNone.filterMap o).length < 2 := by omega
    rcases hh : notNone.filterMap o with _ | ⟨x, _ | ⟨y, l⟩⟩
    · exact List.Pairwise.nil
    · exact List.pairwise_singleton _ _
    · rw [hh] at this; simp at this
  · -- the positions in order
    rename_i hlt
    rw [hvals]
    set ix := (if reverse = true then (argsort (notNone.filterMap o)).reverse else argsort (notNone.filterMap o)) with hix
    have hp : ix.Perm (List.range notNone.length) := by
      have := (ha (notNone.filterMap o)).1
      rw [hvl] at this
      rw [hix]
      split
      · exact (List.reverse_perm _).trans this
      · exact this
    have hs : (ix.filterMap ((notNone.filterMap o)[·]?)).Pairwise (fun a b => if reverse then b ≤ a else a ≤ b) := by
      have := (ha (notNone.filterMap o)).2
      rw [hix]
      cases reverse with
      | true => simpa [List.filterMap_reverse, List.pairwise_reverse] using this
      | false => simpa using this
    have hsub : ∀ k ∈ ix.filterMap (fun i => notNone[i]?), k ∈ notNone := by
      intro k hk
      obtain ⟨i, _, hi⟩ := List.mem_filterMap.mp hk
      exact List.mem_of_getElem? hi
    have hperm : (ix.filterMap fun i => notNone[i]?).Perm notNone := by
      have := hp.filterMap (fun i => notNone[i]?)
      rwa [filterMap_range_getElem?] at this
    have hord' : ((ix.filterMap fun i => notNone[i]?).filterMap o).Pairwise
        (fun a b => if reverse then b ≤ a else a ≤ b) := by
      rw [List.filterMap_filterMap]
      have : (ix.filterMap fun i => (notNone[i]?).bind o) = ix.filterMap ((notNone.filterMap o)[·]?) :=
        List.filterMap_congr (fun i _ => (hvi i).symm)
      rw [this]
      exact hs
    show ∃ r, (if rising ix = true then _ else _) = _ ∧ _
    split
    · rename_i hr
      have hixr : ix = List.range notNone.length :=
        hp.eq_of_pairwise (fun a b _ _ h1 h2 => absurd (lt_trans h1 h2) (lt_irrefl a)) ((rising_iff ix).mp hr)
          List.pairwise_lt_range
      refine ⟨d, rfl, List.Perm.refl d, fun _ _ h _ => h, ?_⟩
      rw [hsplit d hdk, ← hnn]
      rw [hixr, filterMap_range_getElem?] at hord'
      exact hord'
    · set ks := placeKeys isNone d.keys (ix.filterMap fun i => notNone[i]?) with hks
      obtain ⟨p1, p2, p3⟩ := placeKeys_spec isNone d.keys (ix.filterMap fun i => notNone[i]?)
        (fun s h => (hnnmem s (hsub s h)).2) (by rw [hperm.length_eq])
      rw [← hks] at p1 p2 p3
      have hkp : ks.Perm d.keys := by
        refine (p1.trans (List.Perm.append_left _ hperm)).trans ?_
        have := List.filter_append_perm (fun k => isNone k) d.keys
        exact this
      have hkn : ks.Nodup := hkp.nodup_iff.mpr hd
      -- items by keys
      have hitem : ∀ l : List Str, (∀ k ∈ l, k ∈ d.keys) →
          Dict.keys (l.filterMap fun k => (Dict.get? d k).map fun v => (k, v)) = l ∧
          ∀ (i : ℕ) (kv : Str × V), l[i]? = some kv.1 → kv ∈ d →
            (l.filterMap fun k => (Dict.get? d k).map fun v => (k, v))[i]? = some kv := by
        intro l
        induction l with
        | nil => intro _; simp
        | cons k l ih =>
          intro hl
          obtain ⟨h1, h2⟩ := ih (fun k' h => hl k' (by simp [h]))
          obtain ⟨v, hv⟩ := Option.isSome_iff_exists.mp (Dict.get?_isSome.mpr (hl k (by simp)))
          rw [List.filterMap_cons_some (b := (k, v)) (by rw [hv]; rfl)]
          refine ⟨by rw [Dict.keys_cons, h1], ?_⟩
          intro i kv hi hkv
          rcases i with _ | i
          · simp only [List.getElem?_cons_zero, Option.some.injEq] at hi ⊢
            have := Dict.get?_of_mem hd hkv
            rw [← hi, hv] at this
            exact Prod.ext hi (Option.some.inj this)
          · simpa using h2 i kv (by simpa using hi) hkv
      have hmem : ∀ k ∈ ks, k ∈ d.keys := fun k hk => hkp.mem_iff.mp hk
      obtain ⟨i1, i2⟩ := hitem ks hmem
      refine ⟨_, rfl, ?_⟩
      rw [Dict.ofUpdates_of_nodup (l := ks.filterMap fun k => (Dict.get? d k).map fun v => (k, v))
        (by have := i1; rw [Dict.keys] at this; rw [this]; exact hkn)]
      refine ⟨?_, ?_, ?_⟩
      · have hd' : (d.keys.filterMap fun k => (Dict.get? d k).map fun v => (k, v)) = d := by
          obtain ⟨_, j2⟩ := hitem d.keys (fun _ h => h)
          apply List.ext_getElem?
          intro i
          cases hi : d[i]? with
          | some kv => exact j2 i kv (by rw [Dict.keys, List.getElem?_map, hi]; rfl) (List.mem_of_getElem? hi)
          | none =>
            rw [List.getElem?_eq_none]
            have h1 := (hitem d.keys (fun _ h => h)).1
            have : (d.keys.filterMap fun k => (Dict.get? d k).map fun v => (k, v)).length = d.length := by
              have := congrArg List.length h1
              simpa [Dict.keys] using this
            rw [this]
            exact List.getElem?_eq_none_iff.mp hi
        have := hkp.filterMap (fun k => (Dict.get? d k).map fun v => (k, v))
        rwa [hd'] at this
      · intro i kv hi hkv
        apply i2 i kv ?_ (List.mem_of_getElem? hi)
        apply p2 i kv.1
        · rw [Dict.keys, List.getElem?_map, hi]; rfl
        · exact (hnone _ (hdk kv (List.mem_of_getElem? hi))).mpr hkv
      · rw [hsplit _ (by
          intro kv hkv
          have : kv.1 ∈ Dict.keys (ks.filterMap fun k => (Dict.get? d k).map fun v => (k, v)) :=
            List.mem_map.mpr ⟨kv, hkv, rfl⟩
          rw [i1] at this
          exact hmem _ this), i1, p3]
        exact hord'

/-- C66: an order for other keys, or of another length, is refused. -/
theorem C66_refused {V : Type} (argsort : List ℝ → List ℕ) (d : Dict Str V) (order : Order) (reverse : Bool)
    (h : match order with
      | .list l => l.length ≠ d.length
      | .dict od => ∃ k, ¬ (k ∈ d.keys ↔ k ∈ od.keys)) :
    Raises (sortOrderedDict argsort d order reverse) := by
  have : order.asDict d.keys = .error .assertion := by
    cases order with
    | list l =>
      simp only at h
      rw [Order.asDict, if_neg]
      simpa [Dict.keys] using fun e => h e.symm
    | dict od =>
      obtain ⟨k, hk⟩ := h
      rw [Order.asDict, if_neg]
      simp only [Bool.and_eq_true, List.all_eq_true, decide_eq_true_iff]
      rintro ⟨h1, h2⟩
      exact hk ⟨h1 k, h2 k⟩
  rw [sortOrderedDict, this]
  exact ⟨_, rfl⟩

/-- Non-vacuity: sorting functions exist. -/
theorem argsortR_exists : ∃ argsort, Spec.ArgsortR argsort := by
  refine ⟨fun l => (List.range l.length).mergeSort fun i j => decide (l.getD i 0 ≤ l.getD j 0), fun l => ⟨?_, ?_⟩⟩
  · exact List.mergeSort_perm _ _
  · have hs := List.pairwise_mergeSort (le := fun i j => decide (l.getD i 0 ≤ l.getD j 0))
      (by intro a b c h1 h2; simp only [decide_eq_true_eq] at *; exact le_trans h1 h2)
      (by intro a b; simp only [Bool.or_eq_true, decide_eq_true_eq]; exact le_total _ _) (List.range l.length)
    rw [List.pairwise_filterMap]
    refine hs.imp ?_
    intro a b hab x hx y hy
    simp only [decide_eq_true_eq, List.getD, hx, hy, Option.getD_some] at hab
    exact hab

/-- Non-vacuity: three items, the second without order, to be swapped. -/
example : (Dict.keys [(['x'], 'a'), (['y'], 'b'), (['z'], 'c')]).Nodup ∧
    Spec.OrderOf (Dict.keys [(['x'], 'a'), (['y'], 'b'), (['z'], 'c')])
      (fun k => if k = ['x'] then some 2 else if k = ['z'] then some 1 else none) (.list [some 2, none, some 1]) := by
  refine ⟨by simp [Dict.keys], ?_⟩
  simp [Spec.OrderOf, Dict.keys]

end Probayes
