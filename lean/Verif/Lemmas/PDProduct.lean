/-
Lemmas on the loops of `product`.
-/
import Mathlib.Tactic.Positivity
import Verif.Model.PDProduct
import Verif.Spec.PDProduct
import Verif.Lemmas.PDPlace
import Verif.Lemmas.BroadcastN
import Verif.Lemmas.PDDrop
import Verif.Lemmas.PDOps

namespace Probayes

/-! ### Dictionaries from updates -/

section
variable {K V : Type _} [DecidableEq K]

theorem get?_foldl_set (l : List (K × V)) : ∀ (d : Dict K V) (k : K) (v : V),
    (∀ v', (k, v') ∈ l → v' = v) → ((k, v) ∈ l ∨ Dict.get? d k = some v) →
    Dict.get? (l.foldl (fun d kv => Dict.set d kv.1 kv.2) d) k = some v := by
  induction l with
  | nil => intro d k v _ h; simpa using h
  | cons kv l ih =>
    intro d k v h1 h2
    rw [List.foldl_cons]
    apply ih _ _ _ (fun v' h => h1 v' (by simp [h]))
    obtain ⟨k', v'⟩ := kv
    by_cases hk : k' = k
    · subst hk
      have := h1 v' (by simp)
      subst this
      right; simp [Dict.get?_set]
    · rcases h2 with h2 | h2
      · left
        rcases List.mem_cons.mp h2 with h2 | h2
        · cases h2; exact absurd rfl hk
        · exact h2
      · right; simp [Dict.get?_set, hk, h2]

theorem mem_keys_foldl_set (l : List (K × V)) : ∀ (d : Dict K V) (k : K),
    k ∈ Dict.keys (l.foldl (fun d kv => Dict.set d kv.1 kv.2) d) ↔
      k ∈ Dict.keys d ∨ k ∈ l.map Prod.fst := by
  induction l with
  | nil => intro d k; simp
  | cons kv l ih =>
    intro d k
    rw [List.foldl_cons, ih, Dict.keys_set]
    by_cases h : kv.1 ∈ Dict.keys d
    · rw [if_pos h]
      simp only [List.map_cons, List.mem_cons]
      constructor
      · rintro (h1 | h1)
        · exact Or.inl h1
        · exact Or.inr (Or.inr h1)
      · rintro (h1 | rfl | h1)
        · exact Or.inl h1
        · exact Or.inl h
        · exact Or.inr h1
    · rw [if_neg h]
      simp only [List.mem_append, List.map_cons, List.mem_cons, List.not_mem_nil, or_false]
      tauto

theorem nodup_foldl_set (l : List (K × V)) : ∀ (d : Dict K V), (Dict.keys d).Nodup →
    (Dict.keys (l.foldl (fun d kv => Dict.set d kv.1 kv.2) d)).Nodup := by
  induction l with
  | nil => intro d h; exact h
  | cons kv l ih => intro d h; exact ih _ (Dict.nodup_set h)

/-- The keys of a dictionary built by updates, in order of first appearance. -/
theorem keys_foldl_set (l : List (K × V)) : ∀ (d : Dict K V),
    Dict.keys (l.foldl (fun d kv => Dict.set d kv.1 kv.2) d) =
      (l.map Prod.fst).foldl (fun ks k => if k ∈ ks then ks else ks ++ [k]) (Dict.keys d) := by
  induction l with
  | nil => intro d; rfl
  | cons kv l ih => intro d; rw [List.foldl_cons, ih, Dict.keys_set]; rfl

end

/-! ### Names -/

theorem splitNames_list (l : List (Str × Str)) (he : ∀ kv ∈ l, Spec.Entry kv.1 kv.2) :
    splitNames ([','].intercalate (l.map Prod.snd)) = Dict.ofUpdates l := by
  rcases l with _ | ⟨kv, l⟩
  · simp [splitNames, List.intercalate, Dict.ofUpdates]
  · have hne : (kv :: l).map Prod.snd ≠ [] := by simp
    have hj : [','].intercalate ((kv :: l).map Prod.snd) ≠ [] := by
      intro hc
      have h1 := (he kv (by simp)).nonempty
      rcases l with _ | ⟨kv', l⟩ <;> simp_all [List.intercalate]
    rw [splitNames, if_neg hj, List.splitOn_intercalate _ _ hne]
    · have : ((kv :: l).map Prod.snd).map (fun t => (str2key t, t)) = kv :: l := by
        rw [List.map_map]
        conv_rhs => rw [← List.map_id (kv :: l)]
        apply List.map_congr_left
        intro a ha
        simp [str2key_entry (he a ha)]
      rw [this]
    · intro t ht
      obtain ⟨a, ha, rfl⟩ := List.mem_map.mp ht
      exact (he a ha).comma

theorem list_chars (l : List (Str × Str)) (he : ∀ kv ∈ l, Spec.Entry kv.1 kv.2) :
    '|' ∉ [','].intercalate (l.map Prod.snd) ∧ '(' ∉ [','].intercalate (l.map Prod.snd) ∧
      ')' ∉ [','].intercalate (l.map Prod.snd) := by
  refine ⟨notMem_intercalate (by decide) _ ?_, notMem_intercalate (by decide) _ ?_,
    notMem_intercalate (by decide) _ ?_⟩ <;>
  · intro s hs
    obtain ⟨a, ha, rfl⟩ := List.mem_map.mp hs
    first
      | exact (he a ha).bar
      | exact (he a ha).lparen
      | exact (he a ha).rparen

/-- A name made of lists of entries with possible repetitions. -/
theorem strMargcond_lists (m c : List (Str × Str)) (hm : ∀ kv ∈ m, Spec.Entry kv.1 kv.2)
    (hc : ∀ kv ∈ c, Spec.Entry kv.1 kv.2) :
    strMargcond (if joinNames (c.map Prod.snd) = [] then joinNames (m.map Prod.snd)
      else joinNames (m.map Prod.snd) ++ '|' :: joinNames (c.map Prod.snd)) =
      .ok (Dict.ofUpdates m, Dict.ofUpdates c) := by
  obtain ⟨m1, m2, m3⟩ := list_chars m hm
  obtain ⟨c1, c2, c3⟩ := list_chars c hc
  have hsm := splitNames_list m hm
  have hsc := splitNames_list c hc
  unfold joinNames
  by_cases hce : [','].intercalate (c.map Prod.snd) = []
  · rw [if_pos hce]
    have hcond : Dict.ofUpdates c = [] := by rw [← hsc, hce]; rfl
    rw [hcond]
    by_cases hme : [','].intercalate (m.map Prod.snd) = []
    · have : Dict.ofUpdates m = [] := by rw [← hsm, hme]; rfl
      rw [this, hme]; rfl
    · simp [strMargcond, hme, findChar_none m2, findChar_none m3, m1, hsm, bind, Except.bind, pure,
        Except.pure]
  · rw [if_neg hce]
    have p1 : '(' ∉ [','].intercalate (m.map Prod.snd) ++ '|' :: [','].intercalate (c.map Prod.snd) := by
      simp [m2, c2]
    have p2 : ')' ∉ [','].intercalate (m.map Prod.snd) ++ '|' :: [','].intercalate (c.map Prod.snd) := by
      simp [m3, c3]
    have hsplit : ([','].intercalate (m.map Prod.snd) ++ '|' :: [','].intercalate (c.map Prod.snd)).splitOn '|'
        = [[','].intercalate (m.map Prod.snd), [','].intercalate (c.map Prod.snd)] := by
      rw [List.splitOn_append_cons_self_of_not_mem m1, List.splitOn_eq_singleton c1]
    simp [strMargcond, findChar_none p1, findChar_none p2, hsplit, hsm, hsc, bind, Except.bind,
      pure, Except.pure]

theorem pdInit_name_congr {fmt : Val → Str} {n n' : Str} (h : strMargcond n = strMargcond n')
    (vals : Dict Str Val) (dims? : Option (Dict Str (Option ℕ))) (prob : Arr) (ps : PSpec) :
    pdInit fmt n vals dims? prob ps = pdInit fmt n' vals dims? prob ps := by
  unfold pdInit; rw [h]

/-! ### Names and keys of factors -/

/-- All marginal entries. -/
def margPairs (args : List PD) : List (Str × Str) := args.flatMap PD.marg

/-- All unmet conditions, with repetitions. -/
def condPairs (args : List PD) : List (Str × Str) :=
  args.flatMap fun a => a.cond.filter fun kt => Spec.Unmet args kt.1

variable {fmt : Val → Str} {args : List PD}

theorem prodMarg_eq (args : List PD) : prodMarg args = (margPairs args).map Prod.snd := by
  simp [prodMarg, margPairs, List.map_flatMap, Dict.vals]

theorem margPairs_entry (F : Spec.Factors fmt args) :
    ∀ kv ∈ margPairs args, Spec.Entry kv.1 kv.2 := by
  intro kv h
  obtain ⟨a, ha, h⟩ := List.mem_flatMap.mp h
  exact (F.wf a ha).margSide.2 kv h

theorem condPairs_entry (F : Spec.Factors fmt args) :
    ∀ kv ∈ condPairs args, Spec.Entry kv.1 kv.2 := by
  intro kv h
  obtain ⟨a, ha, h⟩ := List.mem_flatMap.mp h
  exact (F.wf a ha).condSide.2 kv (List.mem_filter.mp h).1

theorem mem_prodMarg (F : Spec.Factors fmt args) {a : PD} (ha : a ∈ args) {kt : Str × Str}
    (h : kt ∈ a.cond) : kt.2 ∈ prodMarg args ↔ ¬ Spec.Unmet args kt.1 := by
  have hk := str2key_entry ((F.wf a ha).condSide.2 kt h)
  rw [prodMarg_eq]
  constructor
  · intro hm hu
    obtain ⟨kv, h1, h2⟩ := List.mem_map.mp hm
    have hk' := str2key_entry (margPairs_entry F kv h1)
    rw [h2, hk] at hk'
    obtain ⟨b, hb, h3⟩ := List.mem_flatMap.mp h1
    apply hu b hb
    rw [hk']
    exact List.mem_map_of_mem h3
  · intro hu
    simp only [Spec.Unmet, not_forall, not_not] at hu
    obtain ⟨b, hb, hkb⟩ := hu
    have he := F.met a ha b hb kt.1 (List.mem_map_of_mem h) hkb
    rw [Dict.get?_of_mem (F.wf a ha).condSide.1 (show (kt.1, kt.2) ∈ a.cond from h)] at he
    have := Dict.get?_mem he.symm
    exact List.mem_map.mpr ⟨(kt.1, kt.2), List.mem_flatMap.mpr ⟨b, hb, this⟩, rfl⟩

theorem prodCond_eq (F : Spec.Factors fmt args) :
    prodCond args = (condPairs args).map Prod.snd := by
  have h1 : prodCond args = (flatCond args).filter (· ∉ prodMarg args) := by
    apply List.filter_congr
    intro t ht
    simp [cond2marg, ht]
  rw [h1]
  unfold flatCond condPairs
  rw [List.filter_flatMap, List.map_flatMap]
  apply List.flatMap_congr
  intro a ha
  unfold Dict.vals
  rw [List.filter_map]
  congr 1
  apply List.filter_congr
  intro kt hkt
  simp only [Function.comp]
  have := mem_prodMarg F ha hkt
  by_cases hu : Spec.Unmet args kt.1
  · have h2 : kt.2 ∉ prodMarg args := fun h => this.mp h hu
    rw [decide_eq_true h2, decide_eq_true hu]
  · have h2 := this.mpr hu
    rw [decide_eq_false (by simpa using h2), decide_eq_false hu]

theorem prodKeys_eq (F : Spec.Factors fmt args) :
    prodKeys args = (margPairs args ++ condPairs args).map Prod.fst := by
  unfold prodKeys
  rw [prodMarg_eq, prodCond_eq F, ← List.map_append, List.map_map]
  apply List.map_congr_left
  intro kv hkv
  rcases List.mem_append.mp hkv with h | h
  · exact str2key_entry (margPairs_entry F kv h)
  · exact str2key_entry (condPairs_entry F kv h)

theorem mem_prodKeys (F : Spec.Factors fmt args) (k : Str) :
    k ∈ prodKeys args ↔ ∃ a ∈ args, k ∈ a.keylist := by
  rw [prodKeys_eq F]
  simp only [List.map_append, List.mem_append]
  constructor
  · rintro (h | h)
    · obtain ⟨kv, h1, rfl⟩ := List.mem_map.mp h
      obtain ⟨a, ha, h2⟩ := List.mem_flatMap.mp h1
      exact ⟨a, ha, ((F.wf a ha).keys _).mpr (Or.inl (List.mem_map_of_mem h2))⟩
    · obtain ⟨kv, h1, rfl⟩ := List.mem_map.mp h
      obtain ⟨a, ha, h2⟩ := List.mem_flatMap.mp h1
      exact ⟨a, ha, ((F.wf a ha).keys _).mpr
        (Or.inr (List.mem_map_of_mem (List.mem_filter.mp h2).1))⟩
  · rintro ⟨a, ha, h⟩
    rcases ((F.wf a ha).keys _).mp h with h | h
    · obtain ⟨kv, h1, rfl⟩ := List.mem_map.mp h
      exact Or.inl (List.mem_map_of_mem (List.mem_flatMap.mpr ⟨a, ha, h1⟩))
    · by_cases hu : Spec.Unmet args k
      · obtain ⟨kv, h1, rfl⟩ := List.mem_map.mp h
        exact Or.inr (List.mem_map_of_mem (List.mem_flatMap.mpr
          ⟨a, ha, List.mem_filter.mpr ⟨h1, by simpa using hu⟩⟩))
      · simp only [Spec.Unmet, not_forall, not_not] at hu
        obtain ⟨b, hb, hkb⟩ := hu
        obtain ⟨kv, h1, rfl⟩ := List.mem_map.mp hkb
        exact Or.inl (List.mem_map_of_mem (List.mem_flatMap.mpr ⟨b, hb, h1⟩))

theorem productName_eq (F : Spec.Factors fmt args) :
    productName args = (if joinNames ((condPairs args).map Prod.snd) = []
      then joinNames ((margPairs args).map Prod.snd)
      else joinNames ((margPairs args).map Prod.snd) ++ '|' :: joinNames ((condPairs args).map Prod.snd)) := by
  unfold productName
  rw [prodCond_eq F, prodMarg_eq]

theorem margPairs_keys (args : List PD) :
    Dict.keys (margPairs args) = args.flatMap fun a => a.marg.keys := by
  simp [margPairs, Dict.keys, List.map_flatMap]

theorem margPairs_side (F : Spec.Factors fmt args) : Spec.Side (margPairs args) :=
  ⟨by rw [margPairs_keys]; exact F.marg, margPairs_entry F⟩

theorem condPairs_unique (F : Spec.Factors fmt args) {k t t' : Str} (h : (k, t) ∈ condPairs args)
    (h' : (k, t') ∈ condPairs args) : t' = t := by
  obtain ⟨a, ha, h⟩ := List.mem_flatMap.mp h
  obtain ⟨b, hb, h'⟩ := List.mem_flatMap.mp h'
  obtain ⟨h1, h2⟩ := List.mem_filter.mp h
  obtain ⟨h1', h2'⟩ := List.mem_filter.mp h'
  have hu : Spec.Unmet args k := by simpa using h2
  have := F.rest a ha b hb (k, t) h1 hu ⟨k, List.mem_map_of_mem h1', hu⟩
  have e1 := Dict.get?_of_mem (F.wf b hb).condSide.1 this
  rw [Dict.get?_of_mem (F.wf b hb).condSide.1 h1'] at e1
  simpa using e1

theorem get?_condDict (F : Spec.Factors fmt args) {k t : Str} (h : (k, t) ∈ condPairs args) :
    Dict.get? (Dict.ofUpdates (condPairs args)) k = some t :=
  get?_foldl_set _ _ _ _ (fun _ h' => condPairs_unique F h h') (Or.inl h)

theorem mem_condDict (F : Spec.Factors fmt args) (kt : Str × Str) :
    kt ∈ Dict.ofUpdates (condPairs args) ↔ kt ∈ condPairs args := by
  have hn : (Dict.keys (Dict.ofUpdates (condPairs args))).Nodup :=
    nodup_foldl_set _ _ (by simp)
  constructor
  · intro h
    have hk : kt.1 ∈ Dict.keys (Dict.ofUpdates (condPairs args)) := List.mem_map_of_mem h
    rw [Dict.ofUpdates, mem_keys_foldl_set] at hk
    simp only [Dict.keys_nil, List.not_mem_nil, false_or] at hk
    obtain ⟨kv, h1, h2⟩ := List.mem_map.mp hk
    have e1 := Dict.get?_of_mem hn (show (kt.1, kt.2) ∈ _ from h)
    have e2 := get?_condDict F (show (kv.1, kv.2) ∈ condPairs args from h1)
    rw [h2, e1] at e2
    have : kt = kv := Prod.ext h2.symm (by simpa using e2)
    rw [this]; exact h1
  · intro h
    exact Dict.get?_mem (get?_condDict F (show (kt.1, kt.2) ∈ condPairs args from h))

theorem condDict_side (F : Spec.Factors fmt args) : Spec.Side (Dict.ofUpdates (condPairs args)) :=
  ⟨nodup_foldl_set _ _ (by simp), fun kv h => condPairs_entry F kv ((mem_condDict F kv).mp h)⟩

theorem productName_parse (F : Spec.Factors fmt args) :
    strMargcond (productName args) =
      strMargcond (margcondStr (margPairs args) (Dict.ofUpdates (condPairs args))) := by
  rw [C14_render_parse _ _ (margPairs_side F) (condDict_side F), productName_eq F,
    strMargcond_lists _ _ (margPairs_entry F) (condPairs_entry F),
    Dict.ofUpdates_of_nodup (margPairs_side F).1]

/-! ### The check of conditions -/

theorem iscloseQ_self (x : ℚ) : iscloseQ x x = true := by
  simp only [iscloseQ, sub_self, abs_zero, decide_eq_true_eq]
  positivity

theorem allclose_self (l : List ℚ) : allclose l l = .ok true := by
  have : ∀ l : List ℚ, ((l.zip l).all fun xy => iscloseQ xy.1 xy.2) = true := by
    intro l
    induction l with
    | nil => rfl
    | cons x l ih => simpa [iscloseQ_self] using ih
  simp only [allclose, if_true, this]

/-- A text of the form `key=...` is not a key. -/
theorem entry_text_key {k s k' s' : Str} (h : Spec.Entry k s) (h' : Spec.Entry k' s') (he : s = k') :
    s = k := by
  rcases h.key with ⟨⟨v, hv⟩, hk, hne⟩ | ⟨h1, _⟩
  · exfalso
    have hmem : '=' ∈ k' := by rw [← he, hv]; simp
    have hhead : k'.head? ≠ some '=' := by
      rw [← he, hv]
      rcases k with _ | ⟨c, k⟩
      · exact absurd rfl hk
      · simp only [List.cons_append, List.head?_cons, ne_eq, Option.some.injEq]
        intro hc; subst hc; simp at hne
    rcases h'.key with ⟨_, _, h3⟩ | ⟨_, h3 | h3⟩
    · exact h3 hmem
    · exact h3 hmem
    · exact hhead h3
  · exact h1

theorem flat_arr {v : Val} {s : List ℕ} {data : List ℚ} (h : v.flat = (Val.arr s data).flat) :
    ∃ s', v = .arr s' data ∧ (s' = [] ↔ s = []) := by
  rcases s with _ | ⟨n, s⟩
  · rcases v with x | x | x | _ | ⟨s', d⟩ | _ <;> try (simp [Val.flat] at h; done)
    rcases s' with _ | ⟨m, s'⟩
    · simp [Val.flat] at h; exact ⟨[], by rw [h], by simp⟩
    · simp [Val.flat] at h
  · rcases v with x | x | x | _ | ⟨s', d⟩ | _ <;> try (simp [Val.flat] at h; done)
    rcases s' with _ | ⟨m, s'⟩
    · simp [Val.flat] at h
    · simp [Val.flat] at h; exact ⟨m :: s', by rw [h.2], by simp⟩

theorem PD.WF.key_entry {d : PD} (h : d.WF fmt) {k : Str} (hk : k ∈ d.keylist) :
    ∃ s, Spec.Entry k s ∧ (Dict.get? d.marg k = some s ∨ Dict.get? d.cond k = some s) := by
  rcases (h.keys k).mp hk with hm | hc
  · obtain ⟨s, hs⟩ := Dict.get?_of_mem_keys hm
    exact ⟨s, h.margSide.2 _ (Dict.get?_mem hs), Or.inl hs⟩
  · obtain ⟨s, hs⟩ := Dict.get?_of_mem_keys hc
    exact ⟨s, h.condSide.2 _ (Dict.get?_mem hs), Or.inr hs⟩

theorem eqText_ne (k : Str) (v : Val) : eqText fmt k v ≠ k := by
  intro h
  have := congrArg List.length h
  simp [eqText] at this

/-- A condition written as its key alone is an array. -/
theorem array_of_text {d : PD} (h : d.WF fmt) {k : Str} (hc : Dict.get? d.cond k = some k) :
    ∃ s data, Dict.get? d.vals k = some (.arr s data) ∧ s ≠ [] := by
  have hkc := Dict.mem_keys_of_get? hc
  obtain ⟨v, hv⟩ := Dict.get?_of_mem_keys ((h.keys k).mpr (Or.inr hkc))
  rcases hs : v.issingleton with _ | _
  · obtain ⟨a, s, data, rfl, _⟩ := h.array k v hv hs
    refine ⟨s, data, hv, ?_⟩
    rintro rfl
    simp [Val.issingleton] at hs
  · rcases (h.single k v hv hs).2 with h1 | h1
    · exact absurd hkc (h.disj k (Dict.mem_keys_of_get? h1))
    · rw [hc] at h1
      simp only [Option.some.injEq] at h1
      exact absurd h1.symm (eqText_ne k v)

/-- All factors having a met condition's text as a key hold the same list. -/
theorem c2m_values (F : Spec.Factors fmt args) {name : Str} (hn : name ∈ cond2marg args) :
    ∃ data, ∀ a ∈ args, ∀ v, Dict.get? a.vals name = some v → v.raveled = .ok data := by
  obtain ⟨hf, _⟩ := List.mem_filter.mp hn
  obtain ⟨b, hb, hbn⟩ := List.mem_flatMap.mp hf
  obtain ⟨kt, hkt, rfl⟩ := List.mem_map.mp hbn
  have hent := (F.wf b hb).condSide.2 kt hkt
  by_cases hex : ∃ a ∈ args, kt.2 ∈ a.keylist
  · obtain ⟨a, ha, hka⟩ := hex
    obtain ⟨s', hs', _⟩ := (F.wf a ha).key_entry hka
    have hkk : kt.2 = kt.1 := entry_text_key hent hs' rfl
    have hg := Dict.get?_of_mem (F.wf b hb).condSide.1 (show (kt.1, kt.2) ∈ b.cond from hkt)
    rw [hkk] at hg ⊢
    obtain ⟨s, data, hv, _⟩ := array_of_text (F.wf b hb) hg
    refine ⟨data, ?_⟩
    intro a ha v hav
    have := F.same a ha b hb kt.1 (Dict.mem_keys_of_get? hav) (Dict.mem_keys_of_get? hv)
    simp only [PD.values, hav, hv, Option.map_some, Option.some.injEq] at this
    obtain ⟨s'', rfl, _⟩ := flat_arr this
    rfl
  · refine ⟨[], ?_⟩
    intro a ha v hav
    exact absurd ⟨a, ha, Dict.mem_keys_of_get? hav⟩ hex

/-- The lists recorded so far are those of the factors. -/
def Recorded (args : List PD) (st : Dict Str (List ℚ)) : Prop :=
  ∀ name r, Dict.get? st name = some r →
    ∀ a ∈ args, ∀ v, Dict.get? a.vals name = some v → v.raveled = .ok r

theorem condValues_ok (F : Spec.Factors fmt args) {a : PD} (ha : a ∈ args) (l : List Str)
    (hl : ∀ n ∈ l, n ∈ cond2marg args) : ∀ st, Recorded args st →
    ∃ st', condValues l st a = .ok st' ∧ Recorded args st' := by
  unfold condValues
  induction l with
  | nil => intro st h; exact ⟨st, rfl, h⟩
  | cons n l ih =>
    intro st h
    rw [List.foldlM_cons]
    rcases hv : Dict.get? a.vals n with _ | v
    · simp only [bind, Except.bind]
      exact ih (fun x hx => hl x (by simp [hx])) st h
    · obtain ⟨data, hdata⟩ := c2m_values F (hl n (by simp))
      have hr := hdata a ha v hv
      rcases hst : Dict.get? st n with _ | r0
      · simp only [hr, bind, Except.bind, pure, Except.pure]
        apply ih (fun x hx => hl x (by simp [hx]))
        intro name r hname b hb w hw
        rw [Dict.get?_set] at hname
        by_cases he : n = name
        · rw [if_pos he] at hname
          simp only [Option.some.injEq] at hname
          subst hname; subst he
          exact hdata b hb w hw
        · rw [if_neg he] at hname
          exact h name r hname b hb w hw
      · have := h n r0 hst a ha v hv
        rw [hr] at this
        simp only [Except.ok.injEq] at this
        subst this
        simp only [hr, allclose_self, bind, Except.bind, pure, Except.pure, if_true]
        exact ih (fun x hx => hl x (by simp [hx])) st h

theorem condCheck_ok (F : Spec.Factors fmt args) : ∃ st, args.foldlM (condCheck args) [] = .ok st := by
  obtain ⟨st, h, _⟩ := foldlM_prefix (f := condCheck args) (l := args) (s0 := [])
    (fun _ st => Recorded args st) (by intro n r h; simp [Dict.get?] at h) (by
      intro pre a post st hl h
      have ha : a ∈ args := by rw [hl]; simp
      obtain ⟨st', h1, h2⟩ := condValues_ok F ha (cond2marg args) (fun _ h => h) st h
      refine ⟨st', ?_, h2⟩
      rw [condCheck, if_neg]
      · exact h1
      · rintro ⟨hne, hnot⟩
        apply hnot
        have hcs : ∀ n, n ∈ a.cond.vals.filter (· ∉ cond2marg args) ↔
            ∃ kt ∈ a.cond, kt.2 = n ∧ Spec.Unmet args kt.1 := by
          intro n
          simp only [List.mem_filter, decide_eq_true_eq]
          constructor
          · rintro ⟨h1, h2⟩
            obtain ⟨kt, h3, rfl⟩ := List.mem_map.mp h1
            refine ⟨kt, h3, rfl, ?_⟩
            by_contra hu
            apply h2
            exact List.mem_filter.mpr ⟨List.mem_flatMap.mpr ⟨a, ha, h1⟩,
              by simpa using (mem_prodMarg F ha h3).mpr hu⟩
          · rintro ⟨kt, h3, rfl, hu⟩
            refine ⟨List.mem_map_of_mem h3, ?_⟩
            intro hc
            have := (List.mem_filter.mp hc).2
            exact (mem_prodMarg F ha h3).mp (by simpa using this) hu
        have hpc : ∀ n, n ∈ prodCond args ↔ ∃ b ∈ args, ∃ kt ∈ b.cond, kt.2 = n ∧
            Spec.Unmet args kt.1 := by
          intro n
          rw [prodCond_eq F]
          constructor
          · intro h
            obtain ⟨kt, h1, rfl⟩ := List.mem_map.mp h
            obtain ⟨b, hb, h2⟩ := List.mem_flatMap.mp h1
            obtain ⟨h3, h4⟩ := List.mem_filter.mp h2
            exact ⟨b, hb, kt, h3, rfl, by simpa using h4⟩
          · rintro ⟨b, hb, kt, h3, rfl, hu⟩
            exact List.mem_map_of_mem (List.mem_flatMap.mpr
              ⟨b, hb, List.mem_filter.mpr ⟨h3, by simpa using hu⟩⟩)
        obtain ⟨n0, hn0⟩ := List.exists_mem_of_ne_nil _ hne
        obtain ⟨kt0, h01, _, h02⟩ := (hcs n0).mp hn0
        constructor
        · intro n hn
          obtain ⟨b, hb, kt, h1, rfl, h2⟩ := (hpc n).mp hn
          exact (hcs _).mpr ⟨kt, F.rest b hb a ha kt h1 h2
            ⟨kt0.1, List.mem_map_of_mem h01, h02⟩, rfl, h2⟩
        · intro n hn
          obtain ⟨kt, h1, rfl, h2⟩ := (hcs n).mp hn
          exact (hpc _).mpr ⟨a, ha, kt, h1, rfl, h2⟩)
  exact ⟨st, h⟩

end Probayes
