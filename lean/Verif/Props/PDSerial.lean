/-
Property C29: serialising, and writing to and reading from files.
-/
import Mathlib.Data.List.Dedup
import Verif.Model.PDSerial
import Verif.Props.PDSum

namespace Probayes

/-! ### specification -/

/-- Everything but the values is as before. -/
structure Spec.Restored (d r : PD) : Prop where
  marg : r.marg.keys = d.marg.keys
  cond : r.cond.keys = d.cond.keys
  dims : r.dims = d.dims
  shape : r.shape = d.shape
  prob : r.prob = d.prob
  pscale : r.pscale = d.pscale

/-- The same variables, values, dimensions, probabilities and scale. -/
structure Spec.SameDist (d r : PD) : Prop extends Spec.Restored d r where
  keylist : r.keylist = d.keylist
  values : ∀ k, r.values k = d.values k

/-- A Python number becomes an array without axes. -/
def Spec.zeroDim : Val → Val
  | .scalar x => .arr [] [x]
  | v => v

/-- The same distribution but for numbers having become arrays without axes, and
its values listed in the order of the dimensions. -/
structure Spec.FileDist (d r : PD) : Prop extends Spec.Restored d r where
  keylist : r.keylist = d.dims.keys
  values : ∀ k, r.values k = (d.values k).map Spec.zeroDim

/-! ### rebuilding a distribution from its parts -/

theorem Spec.Entry.plain {k s : Str} (h : Spec.Entry k s) : Spec.Entry k k ∧ k ≠ [] := by
  rcases h.key with ⟨⟨v, rfl⟩, hk, he⟩ | ⟨rfl, _⟩
  · have c1 := h.comma
    have c2 := h.bar
    have c3 := h.lparen
    have c4 := h.rparen
    simp only [List.mem_append, not_or] at c1 c2 c3 c4
    exact ⟨entry_plain hk c1.1 c2.1 c3.1 c4.1 he, hk⟩
  · exact ⟨h, h.nonempty⟩

theorem wf_plain {fmt : Val → Str} {d : PD} (h : d.WF fmt) {k : Str} (hk : k ∈ d.keylist) :
    Spec.Entry k k ∧ k ≠ [] := by
  rcases (h.keys k).mp hk with hk | hk
  · obtain ⟨s, hs⟩ := Dict.get?_of_mem_keys hk
    exact (h.margSide.2 _ (Dict.get?_mem hs)).plain
  · obtain ⟨s, hs⟩ := Dict.get?_of_mem_keys hk
    exact (h.condSide.2 _ (Dict.get?_mem hs)).plain

theorem shortName_eq {fmt : Val → Str} {d : PD} (h : d.WF fmt) :
    d.shortName = margcondStr (d.marg.keys.map fun k => (k, k)) (d.cond.keys.map fun k => (k, k)) := by
  have e : ∀ l : List Str, Dict.vals (l.map fun k => (k, k)) = l := by
    intro l; simp [Dict.vals, Function.comp_def]
  simp only [PD.shortName, margcondStr, e]

/-- The text of a variable after rebuilding. -/
def backText (fmt : Val → Str) (vals : Dict Str Val) (k : Str) : Str :=
  match Dict.get? vals k with
  | some v => if v.issingleton then eqText fmt k v else k
  | none => k

/-- Values which may stand for those of a distribution when it is rebuilt. -/
structure Spec.Back (fmt : Val → Str) (d : PD) (vals : Dict Str Val) (g : Val → Val) : Prop where
  nodup : vals.keys.Nodup
  keys : ∀ k, k ∈ vals.keys ↔ k ∈ d.keylist
  get : ∀ k, Dict.get? vals k = (Dict.get? d.vals k).map g
  array : ∀ v, v.issingleton = false → g v = v
  single : ∀ v, v.issingleton = true → (g v).issingleton = true ∧ fmt (g v) = fmt v

section
variable {fmt : Val → Str} {d : PD} {vals : Dict Str Val} {g : Val → Val}

theorem Spec.Back.sing (h : Spec.Back fmt d vals g) (v : Val) : (g v).issingleton = v.issingleton := by
  rcases hs : v.issingleton with _ | _
  · rw [h.array v hs, hs]
  · exact (h.single v hs).1

theorem Spec.Back.build (h : Spec.Back fmt d vals g) (hd : d.WF fmt) (hp : d.Pos) :
    BuildArgs fmt (d.marg.keys.map fun k => (k, backText fmt vals k))
      (d.cond.keys.map fun k => (k, backText fmt vals k)) vals d.dims d.shape := by
  have hentry : ∀ k ∈ d.keylist, Spec.Entry k (backText fmt vals k) := by
    intro k hk
    obtain ⟨v, hv⟩ := Dict.get?_of_mem_keys hk
    have hv' : Dict.get? d.vals k = some v := hv
    unfold backText
    rw [h.get, hv']
    simp only [Option.map_some]
    split_ifs with hs
    · rw [h.sing] at hs
      rw [eqText, (h.single v hs).2]
      rcases (hd.single k v hv' hs).2 with ht | ht
      · exact hd.margSide.2 _ (Dict.get?_mem ht)
      · exact hd.condSide.2 _ (Dict.get?_mem ht)
    · exact (wf_plain hd hk).1
  refine { ne := ?_, nodup := h.nodup, allowed := ?_, margSide := ?_, condSide := ?_, disj := ?_, keys := ?_,
           dimNodup := hd.dimNodup, dimKeys := ?_, single := ?_, array := ?_, cover := ?_ }
  · rintro rfl
    rcases hv : d.vals with _ | ⟨⟨k, v⟩, l⟩
    · exact hd.ne hv
    · have : k ∈ Dict.keys ([] : Dict Str Val) := (h.keys k).mpr (by
        show k ∈ Dict.keys d.vals; rw [hv]; simp)
      simp at this
  · intro k hk; exact hd.allowed k ((h.keys k).mp hk)
  · refine ⟨by rw [keys_mapKeys]; exact hd.margSide.1, ?_⟩
    intro kv hkv
    obtain ⟨k, hk, rfl⟩ := List.mem_map.mp hkv
    exact hentry k ((hd.keys k).mpr (Or.inl hk))
  · refine ⟨by rw [keys_mapKeys]; exact hd.condSide.1, ?_⟩
    intro kv hkv
    obtain ⟨k, hk, rfl⟩ := List.mem_map.mp hkv
    exact hentry k ((hd.keys k).mpr (Or.inr hk))
  · intro k hk
    rw [keys_mapKeys] at hk ⊢
    exact hd.disj k hk
  · intro k
    rw [keys_mapKeys, keys_mapKeys, h.keys]
    exact hd.keys k
  · intro k hk; exact (h.keys k).mpr (hd.dimKeys k hk)
  · intro k v hv hs
    have hk := (hd.keys k).mp ((h.keys k).mp (Dict.mem_keys_of_get? hv))
    have ht : backText fmt vals k = eqText fmt k v := by simp [backText, hv, hs]
    rw [h.get] at hv
    obtain ⟨w, hw, rfl⟩ := Option.map_eq_some_iff.mp hv
    rw [h.sing] at hs
    refine ⟨by rw [(hd.single k w hw hs).1]; rfl, ?_⟩
    rcases hk with hk | hk
    · left; rw [get?_mapKeys _ _ _ hk, ht]
    · right; rw [get?_mapKeys _ _ _ hk, ht]
  · intro k v hv hs
    rw [h.get] at hv
    obtain ⟨w, hw, rfl⟩ := Option.map_eq_some_iff.mp hv
    rw [h.sing] at hs
    obtain ⟨a, s, data, rfl, h1, h2, h3⟩ := hd.array k w hw hs
    exact ⟨s, data, a, h.array _ hs, h1 (hp _ (List.mem_of_getElem? h3)), h2, h3⟩
  · intro a ha
    rw [hd.rank] at ha
    exact hd.cover a ha

theorem foldl_dimsAfter_id (l : Dict Str Val) (dims : Dict Str (Option ℕ))
    (h : ∀ kv ∈ l, kv.1 ∈ Dict.keys dims) : l.foldl dimsAfter dims = dims := by
  induction l with
  | nil => rfl
  | cons kv l ih =>
    have : dimsAfter dims kv = dims := by
      obtain ⟨o, ho⟩ := Dict.get?_of_mem_keys (h kv (by simp))
      unfold dimsAfter
      simp [ho]
    rw [List.foldl_cons, this]
    exact ih fun kv' h' => h kv' (by simp [h'])

theorem wf_dims_mem (hd : d.WF fmt) {k : Str} (hk : k ∈ d.keylist) : k ∈ d.dims.keys := by
  obtain ⟨v, hv⟩ := Dict.get?_of_mem_keys hk
  rcases hs : v.issingleton with _ | _
  · obtain ⟨a, _, _, _, _, h2, _⟩ := hd.array k v hv hs
    exact Dict.mem_keys_of_get? h2
  · exact Dict.mem_keys_of_get? (hd.single k v hv hs).1

/-- A distribution rebuilt from its short name, values, dimensions, probabilities
and scale. -/
theorem Spec.Back.rebuild (h : Spec.Back fmt d vals g) (hd : d.WF fmt) (hp : d.Pos) :
    ∃ r, pdInit fmt d.shortName vals (some d.dims) d.prob d.pscale.spec = .ok r ∧ r.WF fmt ∧
      Spec.Restored d r ∧ r.keylist = vals.keys ∧ ∀ k, r.values k = (Dict.get? vals k).map Val.flat := by
  have hb := h.build hd hp
  obtain ⟨r, r1, r2, r3, r4, r5, r6, r7, r8, r9⟩ :=
    pdInit_ok hb d.prob hd.probShape d.pscale.spec d.pscale hd.stable
  have hside : ∀ K : List Str, K.Nodup → (∀ k ∈ K, k ∈ d.keylist) → Spec.Side (K.map fun k => (k, k)) := by
    intro K hK hk
    refine ⟨by rw [keys_mapKeys]; exact hK, ?_⟩
    intro kv hkv
    obtain ⟨k, hkk, rfl⟩ := List.mem_map.mp hkv
    exact (wf_plain hd (hk k hkk)).1
  have hname : pdInit fmt d.shortName vals (some d.dims) d.prob d.pscale.spec = .ok r := by
    rw [shortName_eq hd, pdInit_named hb (hside _ hd.margSide.1 fun k hk => (hd.keys k).mpr (Or.inl hk))
      (hside _ hd.condSide.1 fun k hk => (hd.keys k).mpr (Or.inr hk)) (by rw [keys_mapKeys, keys_mapKeys])
      (by rw [keys_mapKeys, keys_mapKeys]) ?_, r1]
    intro k v hv hs
    have aux : ∀ K : List Str, Dict.get? (K.map fun k => (k, k)) k =
        Dict.get? (K.map fun k => (k, backText fmt vals k)) k := by
      intro K
      by_cases hK : k ∈ K
      · rw [get?_mapKeys _ _ _ hK, get?_mapKeys _ _ _ hK]; simp [backText, hv, hs]
      · rw [Dict.get?_eq_none.mpr (by rw [keys_mapKeys]; exact hK),
          Dict.get?_eq_none.mpr (by rw [keys_mapKeys]; exact hK)]
    exact ⟨aux _, aux _⟩
  refine ⟨r, hname, r2, ⟨by rw [r3, keys_mapKeys], by rw [r4, keys_mapKeys], ?_, r7, r8, r9⟩, ?_,
    hb.values r5⟩
  · obtain ⟨p1, _⟩ := pdInit_inv r1
    obtain ⟨e, e1, e2, e3, _⟩ := distDims_ok hb.distReady
    rw [e1] at p1
    have : e = r.dist := Except.ok.inj p1
    subst this
    show r.dist.dims = _
    rw [e3, hb.noNone]
    apply foldl_dimsAfter_id
    intro kv hkv
    exact wf_dims_mem hd ((h.keys _).mp (Dict.mem_keys_of_get? (Dict.get?_of_mem h.nodup hkv)))
  · show Dict.keys r.vals = _
    rw [r5, Dict.keys_map]

end

/-! ### in memory -/

/-- The serialised form of a distribution. -/
def recOf (d : PD) : Str × SerRec := (d.shortName, ⟨d.vals, dimCell d.dims, d.prob, d.pscale⟩)

theorem serView_mapIdx (ds : List PD) :
    serView (initCells ds) (ds.mapIdx fun i d => (d.shortName, ⟨d.vals, i, d.prob, d.pscale⟩)) = ds.map recOf := by
  apply List.ext_getElem?
  intro i
  simp only [serView, initCells, List.getElem?_map, List.getElem?_mapIdx]
  rcases h : ds[i]? with _ | d
  · simp
  · simp [recOf, h]

theorem names_mapIdx (ds : List PD) :
    (ds.mapIdx fun i d => (d.shortName, (⟨d.vals, i, d.prob, d.pscale⟩ : SerRef))).map Prod.fst =
      ds.map PD.shortName := by
  apply List.ext_getElem?
  intro i
  simp only [List.getElem?_map, List.getElem?_mapIdx]
  cases ds[i]? <;> rfl

theorem serialise_nodup {ds : List PD} (h : (ds.map PD.shortName).Nodup) :
    serialise ds = ds.mapIdx fun i d => (d.shortName, ⟨d.vals, i, d.prob, d.pscale⟩) := by
  apply Dict.ofUpdates_of_nodup
  rw [names_mapIdx]
  exact h

/-- The dimensions read off a dictionary without texts. -/
def undim : DimVal → Option ℕ
  | .axis n => some n
  | _ => none

theorem undim_cell (dims : Dict Str (Option ℕ)) :
    (dimCell dims).mapM (fun kd => do return (kd.1, ← undimVal kd.2)) = (.ok dims : Py _) := by
  rw [mapM_ok (g := fun kd => (kd.1, undim kd.2))]
  · congr 1
    rw [dimCell, List.map_map]
    conv_rhs => rw [← List.map_id dims]
    apply List.map_congr_left
    rintro ⟨k, o⟩ _
    cases o <;> rfl
  · intro kd hkd
    obtain ⟨⟨k, o⟩, _, rfl⟩ := List.mem_map.mp hkd
    cases o <;> rfl

theorem deserialiseOne_cell (fmt : Val → Str) (n : Str) (vals : Dict Str Val) (dims : Dict Str (Option ℕ))
    (prob : Arr) (ps : PScale) : deserialiseOne fmt (n, ⟨vals, dimCell dims, prob, ps⟩) =
      pdInit fmt n vals (some dims) prob ps.spec := by
  unfold deserialiseOne
  rw [undim_cell]
  rfl

/-- C29, in memory: distributions with distinct short names come back as they were,
in order. -/
theorem C29_memory (fmt : Val → Str) (ds : List PD) (hd : ∀ d ∈ ds, d.WF fmt ∧ d.Pos)
    (hn : (ds.map PD.shortName).Nodup) :
    ∃ rs, deserialise fmt (serView (initCells ds) (serialise ds)) = .ok rs ∧
      List.Forall₂ (fun d r => r.WF fmt ∧ Spec.SameDist d r) ds rs := by
  rw [serialise_nodup hn, serView_mapIdx]
  have key : ∀ d ∈ ds, ∃ r, deserialiseOne fmt (recOf d) = .ok r ∧ (r.WF fmt ∧ Spec.SameDist d r) := by
    intro d hdd
    obtain ⟨hw, hp⟩ := hd d hdd
    have hb : Spec.Back fmt d d.vals id :=
      ⟨hw.nodup, fun k => Iff.rfl, fun k => by simp, fun _ _ => rfl, fun _ h => ⟨h, rfl⟩⟩
    obtain ⟨r, r1, r2, r3, r4, r5⟩ := hb.rebuild hw hp
    exact ⟨r, by rw [recOf, deserialiseOne_cell]; exact r1, r2, r3, r4, r5⟩
  obtain ⟨rs, h1, h2⟩ := mapM_forall₂ ds key
  refine ⟨rs, ?_, h2⟩
  rw [deserialise, List.mapM_map]
  exact h1

theorem keys_updates {V : Type _} (l : List (Str × V)) : ∀ d : Dict Str V, (Dict.keys d).Nodup →
    (Dict.keys (l.foldl (fun d kv => Dict.set d kv.1 kv.2) d)).Nodup ∧
    ∀ k, k ∈ Dict.keys (l.foldl (fun d kv => Dict.set d kv.1 kv.2) d) ↔ k ∈ Dict.keys d ∨ k ∈ l.map Prod.fst := by
  induction l with
  | nil => intro d h; exact ⟨h, by simp⟩
  | cons kv l ih =>
    intro d h
    obtain ⟨h1, h2⟩ := ih (Dict.set d kv.1 kv.2) (Dict.nodup_set h)
    refine ⟨h1, fun k => ?_⟩
    rw [List.foldl_cons, h2, Dict.keys_set]
    by_cases hk : kv.1 ∈ Dict.keys d
    · rw [if_pos hk]
      simp only [List.map_cons, List.mem_cons]
      constructor
      · tauto
      · rintro (h | rfl | h)
        · exact Or.inl h
        · exact Or.inl hk
        · exact Or.inr h
    · rw [if_neg hk]
      simp only [List.mem_append, List.mem_singleton, List.map_cons, List.mem_cons, List.not_mem_nil, or_false]
      tauto

/-- C29: whatever is deserialised has as many distributions as there were different
short names: any two distributions over the same variables collide. -/
theorem C29_collision (fmt : Val → Str) (ds rs : List PD)
    (h : deserialise fmt (serView (initCells ds) (serialise ds)) = .ok rs) :
    rs.length = (ds.map PD.shortName).dedup.length := by
  have h1 : rs.length = (serView (initCells ds) (serialise ds)).length := by
    have : ∀ (l : List (Str × SerRec)) (rs : List PD), l.mapM (deserialiseOne fmt) = .ok rs → rs.length = l.length := by
      intro l
      induction l with
      | nil => intro rs h; have : rs = [] := (Except.ok.inj h).symm; simp [this]
      | cons x l ih =>
        intro rs h
        rw [List.mapM_cons] at h
        rcases hx : deserialiseOne fmt x with e | y
        · rw [hx] at h; simp [bind, Except.bind] at h
        · rcases hl : l.mapM (deserialiseOne fmt) with e | ys
          · rw [hx, hl] at h; simp [bind, Except.bind] at h
          · rw [hx, hl] at h
            have : rs = y :: ys := (Except.ok.inj h).symm
            rw [this]; simp [ih ys hl]
    exact this _ _ h
  have h2 : (serView (initCells ds) (serialise ds)).length = (Dict.keys (serialise ds)).length := by
    simp [serView, Dict.keys]
  rw [h1, h2]
  obtain ⟨k1, k2⟩ := keys_updates
    (ds.mapIdx fun i d => (d.shortName, (⟨d.vals, i, d.prob, d.pscale⟩ : SerRef))) [] (by simp)
  apply List.Perm.length_eq
  refine (List.perm_ext_iff_of_nodup k1 (List.nodup_dedup _)).mpr ?_
  intro k
  rw [List.mem_dedup]
  refine (k2 k).trans ?_
  rw [names_mapIdx]
  simp

/-! ### files -/

/-- Values that can be stored: arrays, numbers and counts. -/
def Spec.Storable : Val → Prop
  | .arr _ _ => True
  | .scalar _ => True
  | .setint n => 0 ≤ n
  | _ => False

/-- The data set of a value. -/
def h5Of : Val → H5
  | .arr s data => .num s data
  | .scalar x => .num [] [x]
  | .setint n => .strs n.toNat
  | _ => .strs 0

theorem writeVal_ok {v : Val} (h : Spec.Storable v) : writeVal v = .ok (h5Of v) := by
  cases v <;> simp_all [Spec.Storable, writeVal, h5Of]

theorem readVal_h5Of {v : Val} (h : Spec.Storable v) : readVal (h5Of v) = Spec.zeroDim v := by
  cases v <;> simp_all [Spec.Storable, readVal, h5Of, Spec.zeroDim]

/-- The group of one distribution. -/
def groupOf (vals : Dict Str Val) (cell : Dict Str DimVal) (prob : Arr) (ps : PScale) : H5Group :=
  ⟨vals.map fun kv => (kv.1, h5Of kv.2),
   Dict.set ((markNone cell).map fun kd => (kd.1, attrOf kd.2)) "order".toList (.names (markNone cell).keys), prob, ps⟩

theorem markNone_idem (c : Dict Str DimVal) : markNone (markNone c) = markNone c := by
  unfold markNone
  rw [List.map_map]
  apply List.map_congr_left
  rintro ⟨k, v⟩ _
  cases v <;> rfl

theorem keys_markNone (c : Dict Str DimVal) : (markNone c).keys = c.keys := by
  simp [markNone, Dict.keys]

theorem groupOf_mark (vals : Dict Str Val) (cell : Dict Str DimVal) (prob : Arr) (ps : PScale) :
    groupOf vals (markNone cell) prob ps = groupOf vals cell prob ps := by
  simp only [groupOf, markNone_idem]

theorem writeOne_ok (cells : List (Dict Str DimVal)) (kv : Str × SerRef)
    (h : ∀ kx ∈ kv.2.vals, Spec.Storable kx.2) :
    writeOne cells kv = .ok (cells.set kv.2.attrs (markNone (cells.getD kv.2.attrs [])),
      groupOf kv.2.vals (cells.getD kv.2.attrs []) kv.2.prob kv.2.pscale) := by
  unfold writeOne
  rw [mapM_ok (g := fun kx => (kx.1, h5Of kx.2))]
  · rfl
  · intro kx hkx
    rw [writeVal_ok (h kx hkx)]
    rfl

/-- Cells of which some have been marked. -/
def Spec.Marked (ix : List ℕ) (cells cells' : List (Dict Str DimVal)) : Prop :=
  ∀ i, cells'[i]? = if i ∈ ix then cells[i]?.map markNone else cells[i]?

theorem Spec.Marked.mark {ix : List ℕ} {cells cells' : List (Dict Str DimVal)} (h : Spec.Marked ix cells cells')
    (i : ℕ) : markNone (cells'.getD i []) = markNone (cells.getD i []) := by
  rw [List.getD_eq_getElem?_getD, List.getD_eq_getElem?_getD, h i]
  split_ifs
  · rcases cells[i]? with _ | c
    · rfl
    · exact markNone_idem c
  · rfl

theorem Spec.Marked.step {ix : List ℕ} {cells cells' : List (Dict Str DimVal)} (h : Spec.Marked ix cells cells')
    (n : ℕ) : Spec.Marked (ix ++ [n]) cells (cells'.set n (markNone (cells'.getD n []))) := by
  intro i
  rw [List.getElem?_set]
  by_cases hi : n = i
  · subst hi
    have hin : n ∈ ix ++ [n] := List.mem_append_right _ (List.mem_singleton.mpr rfl)
    rw [if_pos rfl, h.mark, List.getD_eq_getElem?_getD]
    simp only [if_pos hin]
    have hl : cells'[n]? = none ↔ cells[n]? = none := by
      rw [h n]
      split_ifs <;> simp
    rw [List.getElem?_eq_none_iff] at hl
    rcases hc : cells[n]? with _ | c
    · rw [if_neg (by have := hl.mpr hc; omega)]
      rfl
    · rw [if_pos (by
        by_contra hlt
        rw [hl.mp (by omega)] at hc; simp at hc)]
      rfl
  · rw [if_neg hi, h i]
    have : i ∈ ix ++ [n] ↔ i ∈ ix := by simp [Ne.symm hi]
    simp only [this]

theorem groupOf_congr {vals : Dict Str Val} {c c' : Dict Str DimVal} {prob : Arr} {ps : PScale}
    (h : markNone c = markNone c') : groupOf vals c prob ps = groupOf vals c' prob ps := by
  simp only [groupOf, h]

theorem write_loop (cells : List (Dict Str DimVal)) (l : Dict Str SerRef)
    (h : ∀ kv ∈ l, ∀ kx ∈ kv.2.vals, Spec.Storable kx.2) :
    ∀ (ix : List ℕ) (cells' : List (Dict Str DimVal)) (acc : Dict Str H5Group), Spec.Marked ix cells cells' →
      ∃ cells'', l.foldlM (fun st kv => do
        let (cells, g) ← writeOne st.1 kv
        return (cells, st.2 ++ [(kv.1, g)])) (cells', acc) =
          (.ok (cells'', acc ++ l.map fun kv =>
            (kv.1, groupOf kv.2.vals (cells.getD kv.2.attrs []) kv.2.prob kv.2.pscale)) : Py _) ∧
        Spec.Marked (ix ++ l.map fun kv => kv.2.attrs) cells cells'' := by
  induction l with
  | nil => intro ix cells' acc hm; exact ⟨cells', by simp [pure, Except.pure], by simpa using hm⟩
  | cons kv l ih =>
    intro ix cells' acc hm
    obtain ⟨c2, h1, h2⟩ := ih (fun kv' h' => h kv' (by simp [h'])) _ _
      (acc ++ [(kv.1, groupOf kv.2.vals (cells.getD kv.2.attrs []) kv.2.prob kv.2.pscale)]) (hm.step kv.2.attrs)
    refine ⟨c2, ?_, by simpa using h2⟩
    rw [List.foldlM_cons, writeOne_ok cells' kv (h kv (by simp)), groupOf_congr (hm.mark kv.2.attrs)]
    refine Eq.trans ?_ (h1.trans (by simp [List.append_assoc]))
    rfl

/-- The file of distributions with distinct short names. -/
theorem writeDist_ok {ds : List PD} (hn : (ds.map PD.shortName).Nodup)
    (hs : ∀ d ∈ ds, ∀ k v, (k, v) ∈ d.vals → Spec.Storable v) :
    writeDist ds = .ok ((initCells ds).map markNone,
      ds.map fun d => (d.shortName, groupOf d.vals (dimCell d.dims) d.prob d.pscale)) := by
  unfold writeDist writeSerialised
  rw [serialise_nodup hn]
  obtain ⟨c, h1, h2⟩ := write_loop (initCells ds)
    (ds.mapIdx fun i d => (d.shortName, (⟨d.vals, i, d.prob, d.pscale⟩ : SerRef))) (by
      intro kv hkv kx hkx
      obtain ⟨i, hi⟩ := List.getElem?_of_mem hkv
      rw [List.getElem?_mapIdx] at hi
      obtain ⟨d, hd, rfl⟩ := Option.map_eq_some_iff.mp hi
      exact hs d (List.mem_of_getElem? hd) kx.1 kx.2 hkx) [] (initCells ds) [] (by intro i; simp)
  refine h1.trans ?_
  congr 2
  · apply List.ext_getElem?
    intro i
    rw [h2 i, List.getElem?_map]
    split_ifs with hi
    · rfl
    · rcases hc : (initCells ds)[i]? with _ | c
      · rfl
      · exfalso
        apply hi
        rw [List.nil_append]
        have : i < ds.length := by
          have := (List.getElem?_eq_some_iff.mp hc).1
          simpa [initCells] using this
        rw [List.mem_iff_getElem?]
        refine ⟨i, ?_⟩
        rw [List.getElem?_map, List.getElem?_mapIdx, List.getElem?_eq_getElem this]
        rfl
  · rw [List.nil_append]
    apply List.ext_getElem?
    intro i
    rw [List.getElem?_map, List.getElem?_mapIdx, List.getElem?_map]
    rcases hd : ds[i]? with _ | d
    · rfl
    · simp [initCells, hd]

theorem keys_map_get {V W : Type _} (d : Dict Str V) (f : Option V → W) (h : (Dict.keys d).Nodup) :
    (Dict.keys d).map (fun k => (k, f (Dict.get? d k))) = d.map fun kv => (kv.1, f (some kv.2)) := by
  rw [Dict.keys, List.map_map]
  apply List.map_congr_left
  rintro ⟨k, v⟩ hkv
  simp only [Function.comp, Dict.get?_of_mem h hkv]

theorem mem_h5order {l : List Str} {k : Str} : k ∈ h5order l ↔ k ∈ l := List.mem_mergeSort

theorem h5order_perm (l : List Str) : (h5order l).Perm l := List.mergeSort_perm _ _

theorem h5order_sorted (l : List Str) : (h5order l).Pairwise (· ≤ ·) := by
  have := List.pairwise_mergeSort (le := fun a b : Str => decide (a ≤ b))
    (by intro a b c h1 h2; simp only [decide_eq_true_eq] at *; exact le_trans h1 h2)
    (by intro a b; simp only [Bool.or_eq_true, decide_eq_true_eq]; exact le_total a b) l
  simpa [h5order] using this

/-- The values of a distribution as they are read from a file. -/
def fileVals (d : PD) : Dict Str Val :=
  d.dims.keys.map fun k => (k, Spec.zeroDim ((Dict.get? d.vals k).getD (.scalar 0)))

theorem get?_filterMap_keys {V W : Type _} (d : Dict Str V) (f : V → W) (k : Str) (hk : k ∈ Dict.keys d) :
    ∀ l : List Str, k ∈ l → Dict.get? (l.filterMap fun k => (Dict.get? d k).map fun x => (k, f x)) k =
      (Dict.get? d k).map f := by
  intro l
  obtain ⟨v, hv⟩ := Dict.get?_of_mem_keys hk
  induction l with
  | nil => intro h; simp at h
  | cons a l ih =>
    intro h
    by_cases ha : a = k
    · subst ha
      simp [hv, Dict.get?]
    · have := ih (by rcases List.mem_cons.mp h with h | h; exact absurd h.symm ha; exact h)
      rcases hg : Dict.get? d a with _ | w
      · simpa [hg] using this
      · simpa [hg, Dict.get?, ha] using this

theorem erase_append_last {V : Type _} (d : Dict Str V) (k : Str) (v : V) (h : k ∉ Dict.keys d) :
    Dict.erase (d ++ [(k, v)]) k = d := by
  induction d with
  | nil => simp [Dict.erase]
  | cons kv d ih =>
    simp only [Dict.keys_cons, List.mem_cons, not_or] at h
    rw [List.cons_append, Dict.erase, if_neg (Ne.symm h.1), ih h.2]

/-- The attribute of a dimension. -/
def attrDim : Option ℕ → H5Attr
  | none => .text
  | some n => .axis n

theorem attrs_cell (dims : Dict Str (Option ℕ)) :
    ((markNone (dimCell dims)).map fun kd => (kd.1, attrOf kd.2)) = dims.map fun kv => (kv.1, attrDim kv.2) := by
  rw [markNone, dimCell, List.map_map, List.map_map]
  apply List.map_congr_left
  rintro ⟨k, o⟩ _
  cases o <;> rfl

theorem keys_cell (dims : Dict Str (Option ℕ)) : (markNone (dimCell dims)).keys = dims.keys := by
  rw [keys_markNone]; simp [dimCell, Dict.keys]

theorem wf_dims_ne {fmt : Val → Str} {d : PD} (hd : d.WF fmt) : d.dims ≠ [] := by
  intro hc
  rcases hv : d.vals with _ | ⟨⟨k, v⟩, l⟩
  · exact hd.ne hv
  · have := wf_dims_mem hd (k := k) (by show k ∈ Dict.keys d.vals; rw [hv]; simp)
    rw [hc] at this; simp at this

theorem readOne_group {fmt : Val → Str} {d : PD} (hd : d.WF fmt) (ho : "order".toList ∉ d.dims.keys)
    (hs : ∀ k v, (k, v) ∈ d.vals → Spec.Storable v) :
    readOne (groupOf d.vals (dimCell d.dims) d.prob d.pscale) =
      .ok ⟨fileVals d, dimCell d.dims, d.prob, d.pscale⟩ := by
  have ho' : "order".toList ∉ Dict.keys (d.dims.map fun kv => (kv.1, attrDim kv.2)) := by
    rw [Dict.keys_map (fun _ o => attrDim o) d.dims]; exact ho
  have hvk : Dict.keys (d.vals.map fun kv => (kv.1, h5Of kv.2)) = d.keylist :=
    Dict.keys_map (fun _ v => h5Of v) d.vals
  unfold readOne groupOf
  simp only [Dict.get?_set, if_true, keys_cell, attrs_cell, hvk]
  rw [Dict.set_of_notMem ho', erase_append_last _ _ _ ho']
  have hdims : d.dims.keys.mapM (fun k => do
      return (k, ← readAttr (← getKey (d.dims.map fun kv => (kv.1, attrDim kv.2)) k))) =
      (.ok (dimCell d.dims) : Py _) := by
    rw [mapM_ok (g := fun k => (k, (fun o : Option (Option ℕ) => dimVal o.join) (Dict.get? d.dims k)))]
    · rw [keys_map_get d.dims (fun o => dimVal o.join) hd.dimNodup]
      rfl
    · intro k hk
      obtain ⟨o, hok⟩ := Dict.get?_of_mem_keys hk
      rw [getKey, Dict.get?_map (fun _ o => attrDim o) d.dims, hok]
      cases o <;> rfl
  rw [hdims]
  have hvals : d.dims.keys.mapM (fun k => do
      return (k, ← getKey ((h5order d.keylist).filterMap fun k =>
        (Dict.get? (d.vals.map fun kv => (kv.1, h5Of kv.2)) k).map fun x => (k, readVal x)) k)) =
      (.ok (fileVals d) : Py _) := by
    apply mapM_ok
    intro k hk
    have hkv := hd.dimKeys k hk
    obtain ⟨v, hv⟩ := Dict.get?_of_mem_keys hkv
    rw [getKey, get?_filterMap_keys _ _ _ (by rw [hvk]; exact hkv) _ (mem_h5order.mpr hkv),
      Dict.get?_map (fun _ v => h5Of v) d.vals]
    have hv' : Dict.get? d.vals k = some v := hv
    simp only [hv', Option.map_some, Option.getD_some, readVal_h5Of (hs k v (Dict.get?_mem hv'))]
    rfl
  have hrest : ((h5order d.keylist).filterMap fun k =>
        (Dict.get? (d.vals.map fun kv => (kv.1, h5Of kv.2)) k).map fun x => (k, readVal x)).filter
        (fun kv => decide (kv.1 ∉ d.dims.keys)) = [] := by
    rw [List.filter_eq_nil_iff]
    intro kv hkv
    obtain ⟨k, hk, h1⟩ := List.mem_filterMap.mp hkv
    obtain ⟨x, _, rfl⟩ := Option.map_eq_some_iff.mp h1
    simpa using wf_dims_mem hd (mem_h5order.mp hk)
  have hemp : (dimCell d.dims).isEmpty = false := by
    have := wf_dims_ne hd
    simp [dimCell, this]
  have hnd : (dimCell d.dims).map Prod.fst = d.dims.keys := by simp [dimCell, Dict.keys]
  have hnf : (fileVals d).map Prod.fst = d.dims.keys := keys_mapKeys _ _
  simp only [bind, Except.bind] at hvals ⊢
  rw [hvals, hrest]
  simp only [hemp, Bool.false_eq_true, if_false, List.append_nil]
  rw [Dict.ofUpdates_of_nodup (by rw [hnf]; exact hd.dimNodup), Dict.ofUpdates_of_nodup (by rw [hnd]; exact hd.dimNodup)]
  rfl

theorem exists_map_names (ds : List PD) : ∀ names : List Str, (∀ n ∈ names, ∃ d ∈ ds, d.shortName = n) →
    ∃ es : List PD, es.map PD.shortName = names ∧ ∀ e ∈ es, e ∈ ds := by
  intro names
  induction names with
  | nil => intro _; exact ⟨[], rfl, by simp⟩
  | cons n names ih =>
    intro h
    obtain ⟨d, hd, hn⟩ := h n (by simp)
    obtain ⟨es, h1, h2⟩ := ih fun m hm => h m (by simp [hm])
    exact ⟨d :: es, by simp [hn, h1], by simp [hd]; exact h2⟩

/-- The names read from a file, in order, belong to the distributions without spaces. -/
theorem read_names {ds : List PD} (hn : (ds.map PD.shortName).Nodup) :
    ∃ es : List PD, es.map PD.shortName = (h5order (ds.map PD.shortName)).filter (fun n => ' ' ∉ n) ∧
      (∀ e ∈ es, e ∈ ds) ∧ es.Perm (ds.filter fun d => ' ' ∉ d.shortName) := by
  obtain ⟨es, h1, h2⟩ := exists_map_names ds ((h5order (ds.map PD.shortName)).filter (fun n => ' ' ∉ n)) (by
    intro n hn
    have := mem_h5order.mp (List.mem_filter.mp hn).1
    obtain ⟨d, hd, rfl⟩ := List.mem_map.mp this
    exact ⟨d, hd, rfl⟩)
  refine ⟨es, h1, h2, ?_⟩
  have hen : es.Nodup := by
    apply List.Nodup.of_map PD.shortName
    rw [h1]
    exact ((h5order_perm _).nodup_iff.mpr hn).filter _
  refine (List.perm_ext_iff_of_nodup hen (hn.of_map.filter _)).mpr ?_
  intro d
  have hmem : ∀ n, n ∈ es.map PD.shortName ↔ n ∈ ds.map PD.shortName ∧ ' ' ∉ n := by
    intro n
    rw [h1, List.mem_filter, mem_h5order]
    simp
  rw [List.mem_filter]
  constructor
  · intro hd
    exact ⟨h2 d hd, by simpa using ((hmem d.shortName).mp (List.mem_map_of_mem hd)).2⟩
  · rintro ⟨hd, hsp⟩
    obtain ⟨e, he, hee⟩ := List.mem_map.mp ((hmem d.shortName).mpr ⟨List.mem_map_of_mem hd, by simpa using hsp⟩)
    rwa [← List.inj_on_of_nodup_map hn (h2 e he) hd hee]

theorem get?_file {ds : List PD} (hn : (ds.map PD.shortName).Nodup) (f : PD → H5Group) {d : PD} (hd : d ∈ ds) :
    getKey (ds.map fun d => (d.shortName, f d)) d.shortName = .ok (f d) := by
  have : Dict.get? (ds.map fun d => (d.shortName, f d)) d.shortName = some (f d) := by
    apply Dict.get?_of_mem
    · simpa [Dict.keys, Function.comp_def] using hn
    · exact List.mem_map_of_mem (f := fun d => (d.shortName, f d)) hd
  rw [getKey, this]

theorem get?_fileVals {fmt : Val → Str} {d : PD} (hd : d.WF fmt) (k : Str) :
    Dict.get? (fileVals d) k = (Dict.get? d.vals k).map Spec.zeroDim := by
  by_cases hk : k ∈ d.dims.keys
  · obtain ⟨v, hv⟩ := Dict.get?_of_mem_keys (hd.dimKeys k hk)
    rw [fileVals, get?_mapKeys _ _ _ hk, hv]; rfl
  · rw [Dict.get?_eq_none.mpr (by rw [fileVals, keys_mapKeys]; exact hk), Dict.get?_eq_none.mpr]
    · rfl
    · intro hc; exact hk (wf_dims_mem hd hc)

theorem Spec.back_file {fmt : Val → Str} {d : PD} (hd : d.WF fmt)
    (hfmt : ∀ x, fmt (.arr [] [x]) = fmt (.scalar x)) : Spec.Back fmt d (fileVals d) Spec.zeroDim where
  nodup := by rw [fileVals, keys_mapKeys]; exact hd.dimNodup
  keys := by
    intro k
    rw [fileVals, keys_mapKeys]
    exact ⟨hd.dimKeys k, wf_dims_mem hd⟩
  get := get?_fileVals hd
  array := by
    intro v hv
    cases v <;> first | rfl | simp [Val.issingleton] at hv
  single := by
    intro v hv
    cases v <;> first | exact ⟨hv, rfl⟩ | exact ⟨rfl, hfmt _⟩

theorem flat_zeroDim (v : Val) : (Spec.zeroDim v).flat = Spec.zeroDim v.flat := by
  rcases v with x | x | x | _ | ⟨s, data⟩ | _ <;> try rfl
  cases s <;> rfl

/-- C29, files: distributions with distinct short names, none of which has a variable
called "order" and all of whose values are arrays, numbers or counts, come back with
the same dimensions, probabilities, scale and names.  Missing from the property:
they come back in alphabetical order, those with a space in a name are left out, and
numbers come back as arrays without axes. -/
theorem C29_file_partial (fmt : Val → Str) (hfmt : ∀ x, fmt (.arr [] [x]) = fmt (.scalar x)) (ds : List PD)
    (hd : ∀ d ∈ ds, d.WF fmt ∧ d.Pos) (hn : (ds.map PD.shortName).Nodup)
    (ho : ∀ d ∈ ds, "order".toList ∉ d.keylist) (hs : ∀ d ∈ ds, ∀ k v, (k, v) ∈ d.vals → Spec.Storable v) :
    ∃ cells file es rs, writeDist ds = .ok (cells, file) ∧ readDist fmt file = .ok rs ∧
      es.Perm (ds.filter fun d => ' ' ∉ d.shortName) ∧ (es.map PD.shortName).Pairwise (· ≤ ·) ∧
      List.Forall₂ (fun d r => r.WF fmt ∧ Spec.FileDist d r) es rs := by
  obtain ⟨es, e1, e2, e3⟩ := read_names hn
  have hread : readSerialised (ds.map fun d => (d.shortName, groupOf d.vals (dimCell d.dims) d.prob d.pscale)) =
      .ok (es.map fun d => (d.shortName, ⟨fileVals d, dimCell d.dims, d.prob, d.pscale⟩)) := by
    unfold readSerialised
    have hk : Dict.keys (ds.map fun d => (d.shortName, groupOf d.vals (dimCell d.dims) d.prob d.pscale)) =
        ds.map PD.shortName := by simp [Dict.keys, Function.comp_def]
    rw [hk, ← e1, List.mapM_map]
    apply mapM_ok
    intro d hdd
    obtain ⟨hw, _⟩ := hd d (e2 d hdd)
    simp only [Function.comp]
    rw [get?_file hn (fun d => groupOf d.vals (dimCell d.dims) d.prob d.pscale) (e2 d hdd)]
    have := readOne_group hw (fun hc => ho d (e2 d hdd) (hw.dimKeys _ hc)) (hs d (e2 d hdd))
    simp only [bind, Except.bind, this]
    rfl
  have key : ∀ d ∈ es, ∃ r, deserialiseOne fmt (d.shortName, ⟨fileVals d, dimCell d.dims, d.prob, d.pscale⟩) = .ok r ∧
      (r.WF fmt ∧ Spec.FileDist d r) := by
    intro d hdd
    obtain ⟨hw, hp⟩ := hd d (e2 d hdd)
    obtain ⟨r, r1, r2, r3, r4, r5⟩ := (Spec.back_file hw hfmt).rebuild hw hp
    refine ⟨r, by rw [deserialiseOne_cell]; exact r1, r2, r3, by rw [r4, fileVals, keys_mapKeys], ?_⟩
    intro k
    rw [r5, get?_fileVals hw, PD.values, Option.map_map, Option.map_map]
    congr 1
    funext v
    exact flat_zeroDim v
  obtain ⟨rs, h1, h2⟩ := mapM_forall₂ es key
  refine ⟨_, _, es, rs, writeDist_ok hn hs, ?_, e3, ?_, h2⟩
  · rw [readDist, hread]
    show deserialise fmt _ = _
    rw [deserialise, List.mapM_map]
    exact h1
  · rw [e1]
    exact (h5order_sorted _).filter _

/-- C29: writing leaves the distributions as they were exactly if none of them has a
scalar variable: the dimension `None` becomes a text. -/
theorem C29_write_keeps_iff (ds : List PD) (hn : (ds.map PD.shortName).Nodup)
    (hs : ∀ d ∈ ds, ∀ k v, (k, v) ∈ d.vals → Spec.Storable v) :
    ∃ cells file, writeDist ds = .ok (cells, file) ∧
      (cells = initCells ds ↔ ∀ d ∈ ds, ∀ k, (k, none) ∉ d.dims) := by
  refine ⟨_, _, writeDist_ok hn hs, ?_⟩
  have hcell : ∀ dims : Dict Str (Option ℕ), markNone (dimCell dims) = dimCell dims ↔ ∀ k, (k, none) ∉ dims := by
    intro dims
    rw [markNone, dimCell, List.map_map]
    constructor
    · intro h k hk
      have := List.map_inj_left.mp h (k, none) hk
      simp [dimVal] at this
    · intro h
      apply List.map_congr_left
      rintro ⟨k, o⟩ hk
      rcases o with _ | n
      · exact absurd hk (h k)
      · rfl
  rw [initCells, List.map_map]
  constructor
  · intro h d hd
    exact (hcell _).mp (List.map_inj_left.mp h d hd)
  · intro h
    apply List.map_congr_left
    intro d hd
    exact (hcell _).mpr (h d hd)

theorem mapM_refuses {α β : Type _} {f : α → Py β} {l : List α} {a : α} (ha : a ∈ l)
    (h : Raises (f a)) : Raises (l.mapM f) := by
  induction l with
  | nil => simp at ha
  | cons b l ih =>
      rw [List.mapM_cons]
      rcases hb : f b with e | y
      · exact ⟨e, rfl⟩
      · rcases List.mem_cons.mp ha with rfl | ha'
        · obtain ⟨e, he⟩ := h
          rw [he] at hb; cases hb
        · obtain ⟨e, he⟩ := ih ha'
          exact ⟨e, by rw [he]; rfl⟩

/-- C29: after writing, the serialised distributions can no longer be deserialised if
one of them has a scalar variable. -/
theorem C29_after_write_raises (fmt : Val → Str) (ds : List PD) (hn : (ds.map PD.shortName).Nodup)
    (hs : ∀ d ∈ ds, ∀ k v, (k, v) ∈ d.vals → Spec.Storable v) (d : PD) (hd : d ∈ ds) (k : Str)
    (hk : (k, none) ∈ d.dims) :
    ∃ cells file, writeDist ds = .ok (cells, file) ∧ Raises (deserialise fmt (serView cells (serialise ds))) := by
  refine ⟨_, _, writeDist_ok hn hs, ?_⟩
  obtain ⟨i, hi⟩ := List.getElem?_of_mem hd
  have hmem : (d.shortName, (⟨d.vals, markNone (dimCell d.dims), d.prob, d.pscale⟩ : SerRec)) ∈
      serView ((initCells ds).map markNone) (serialise ds) := by
    rw [serialise_nodup hn, serView, List.mem_iff_getElem?]
    refine ⟨i, ?_⟩
    rw [List.getElem?_map, List.getElem?_mapIdx, hi]
    simp [initCells, hi]
  refine mapM_refuses hmem ?_
  have hraise : Raises ((markNone (dimCell d.dims)).mapM fun kd => do return (kd.1, ← undimVal kd.2)) := by
    refine mapM_refuses (a := (k, DimVal.text)) ?_ ⟨_, rfl⟩
    rw [markNone, dimCell, List.map_map]
    exact List.mem_map.mpr ⟨_, hk, rfl⟩
  obtain ⟨e, he⟩ := hraise
  refine ⟨e, ?_⟩
  unfold deserialiseOne
  rw [he]
  rfl

/-- C29: the order of distributions is lost whenever it is not alphabetical. -/
theorem C29_order_lost (fmt : Val → Str) (hfmt : ∀ x, fmt (.arr [] [x]) = fmt (.scalar x)) (ds : List PD)
    (hd : ∀ d ∈ ds, d.WF fmt ∧ d.Pos) (hn : (ds.map PD.shortName).Nodup)
    (ho : ∀ d ∈ ds, "order".toList ∉ d.keylist) (hs : ∀ d ∈ ds, ∀ k v, (k, v) ∈ d.vals → Spec.Storable v)
    (hu : ¬ (ds.map PD.shortName).Pairwise (· ≤ ·)) :
    ∃ cells file rs, writeDist ds = .ok (cells, file) ∧ readDist fmt file = .ok rs ∧
      ¬ List.Forall₂ Spec.Restored ds rs := by
  obtain ⟨cells, file, es, rs, h1, h2, h3, h4, h5⟩ := C29_file_partial fmt hfmt ds hd hn ho hs
  refine ⟨cells, file, rs, h1, h2, fun hc => hu ?_⟩
  have hname : ∀ {d r : PD}, Spec.Restored d r → r.shortName = d.shortName := by
    intro d r h
    simp only [PD.shortName, h.marg, h.cond]
  have aux : ∀ {l : List PD} {rs : List PD}, List.Forall₂ Spec.Restored l rs →
      rs.map PD.shortName = l.map PD.shortName := by
    intro l rs h
    induction h with
    | nil => rfl
    | cons h _ ih => simp [hname h, ih]
  rw [← aux hc, aux (h5.imp fun _ _ h => h.2.toRestored)]
  exact h4

theorem get?_erase_self {V : Type _} (d : Dict Str V) (k : Str) (h : (Dict.keys d).Nodup) :
    Dict.get? (Dict.erase d k) k = none := by
  induction d with
  | nil => rfl
  | cons kv d ih =>
    simp only [Dict.keys_cons, List.nodup_cons] at h
    rw [Dict.erase]
    split_ifs with hk
    · exact Dict.get?_eq_none.mpr (by rw [← hk]; exact h.1)
    · rw [Dict.get?, if_neg hk]; exact ih h.2

/-- C29: a file with a distribution over a variable called "order" cannot be read. -/
theorem C29_named_order_raises (fmt : Val → Str) (ds : List PD) (hd : ∀ d ∈ ds, d.WF fmt)
    (hn : (ds.map PD.shortName).Nodup) (hs : ∀ d ∈ ds, ∀ k v, (k, v) ∈ d.vals → Spec.Storable v)
    (d : PD) (hdd : d ∈ ds) (hsp : ' ' ∉ d.shortName) (ho : "order".toList ∈ d.keylist) :
    ∃ cells file, writeDist ds = .ok (cells, file) ∧ Raises (readDist fmt file) := by
  refine ⟨_, _, writeDist_ok hn hs, ?_⟩
  have hw := hd d hdd
  have hone : Raises (readOne (groupOf d.vals (dimCell d.dims) d.prob d.pscale)) := by
    unfold readOne groupOf
    simp only [Dict.get?_set, if_true, keys_cell, attrs_cell]
    obtain ⟨e, he⟩ := mapM_refuses (f := fun k => (do
        return (k, ← readAttr (← getKey (Dict.erase (Dict.set (d.dims.map fun kv => (kv.1, attrDim kv.2))
          "order".toList (.names d.dims.keys)) "order".toList) k)) : Py (Str × DimVal))) (wf_dims_mem hw ho) (by
      have : Dict.get? (Dict.erase (Dict.set (d.dims.map fun kv => (kv.1, attrDim kv.2))
          "order".toList (.names d.dims.keys)) "order".toList) "order".toList = none := by
        apply get?_erase_self
        apply Dict.nodup_set
        rw [Dict.keys_map (fun _ o => attrDim o) d.dims]
        exact hw.dimNodup
      refine ⟨.key, ?_⟩
      rw [getKey, this]
      rfl)
    refine ⟨e, ?_⟩
    rw [he]
    rfl
  have hread : Raises (readSerialised
      (ds.map fun d => (d.shortName, groupOf d.vals (dimCell d.dims) d.prob d.pscale))) := by
    unfold readSerialised
    refine mapM_refuses (a := d.shortName) ?_ ?_
    · rw [List.mem_filter, mem_h5order]
      refine ⟨?_, by simpa using hsp⟩
      rw [Dict.keys, List.map_map]
      exact List.mem_map_of_mem (f := PD.shortName) hdd
    · rw [get?_file hn (fun d => groupOf d.vals (dimCell d.dims) d.prob d.pscale) hdd]
      obtain ⟨e, he⟩ := hone
      exact ⟨e, by simp only [bind, Except.bind, he]⟩
  obtain ⟨e, he⟩ := hread
  exact ⟨e, by rw [readDist, he]; rfl⟩

/-- C29: a set of a negative integer or of a float cannot be written. -/
theorem C29_unstorable_raises (ds : List PD) (hn : (ds.map PD.shortName).Nodup) (d : PD) (hd : d ∈ ds)
    (k : Str) (v : Val) (hv : (k, v) ∈ d.vals) (hs : (∃ n < 0, v = .setint n) ∨ ∃ x, v = .setflt x) :
    Raises (writeDist ds) := by
  unfold writeDist writeSerialised
  rw [serialise_nodup hn]
  obtain ⟨i, hi⟩ := List.getElem?_of_mem hd
  have hmem : (d.shortName, (⟨d.vals, i, d.prob, d.pscale⟩ : SerRef)) ∈
      ds.mapIdx fun i d => (d.shortName, (⟨d.vals, i, d.prob, d.pscale⟩ : SerRef)) := by
    rw [List.mem_iff_getElem?]
    exact ⟨i, by rw [List.getElem?_mapIdx, hi]; rfl⟩
  refine foldlM_raises hmem ?_ _
  intro st
  have hval : Raises (writeVal v) := by
    rcases hs with ⟨n, hneg, rfl⟩ | ⟨x, rfl⟩
    · exact ⟨.value, by rw [writeVal, if_neg (by omega)]⟩
    · exact ⟨.type, rfl⟩
  obtain ⟨e, he⟩ := mapM_refuses (f := fun kx : Str × Val => (do return (kx.1, ← writeVal kx.2) : Py (Str × H5))) hv (by
    obtain ⟨e, he⟩ := hval
    exact ⟨e, by simp only [he, bind, Except.bind]⟩)
  refine ⟨e, ?_⟩
  unfold writeOne
  rw [he]
  rfl

/-- C29 as stated: both round trips give back the distributions, in order, and writing
does not alter them. -/
def C29_claim : Prop := ∀ (fmt : Val → Str), (∀ x, fmt (.arr [] [x]) = fmt (.scalar x)) → ∀ ds : List PD,
  (∀ d ∈ ds, d.WF fmt ∧ d.Pos) →
    (∃ rs, deserialise fmt (serView (initCells ds) (serialise ds)) = .ok rs ∧ List.Forall₂ Spec.Restored ds rs) ∧
    ∃ file rs, writeDist ds = .ok (initCells ds, file) ∧ readDist fmt file = .ok rs ∧
      List.Forall₂ Spec.Restored ds rs

theorem C29_claim_fails : ¬ C29_claim := by
  intro h
  obtain ⟨⟨rs, h1, h2⟩, _⟩ := h (fun _ => ['0']) (fun _ => rfl) [sample1, sample1] (by
    intro d hd
    simp only [List.mem_cons, List.not_mem_nil, or_false, or_self] at hd
    subst hd
    refine ⟨sample1_wf _, ?_⟩
    intro n hn
    simp [sample1, PD.shape] at hn
    omega)
  have := C29_collision _ _ _ h1
  rw [← h2.length_eq] at this
  simp at this

/-- Two distributions over different variables meet the hypotheses of both round trips;
they are not in alphabetical order. -/
theorem serial_hyps : (∀ d ∈ [sample1, countPD], d.WF (fun _ => ['0']) ∧ d.Pos) ∧
    ([sample1, countPD].map PD.shortName).Nodup ∧ (∀ d ∈ [sample1, countPD], "order".toList ∉ d.keylist) ∧
    (∀ d ∈ [sample1, countPD], ∀ k v, (k, v) ∈ d.vals → Spec.Storable v) := by
  refine ⟨?_, by decide, ?_, ?_⟩
  · intro d hd
    simp only [List.mem_cons, List.not_mem_nil, or_false] at hd
    rcases hd with rfl | rfl
    · refine ⟨sample1_wf _, ?_⟩
      intro n hn
      simp [sample1, PD.shape] at hn
      omega
    · refine ⟨countPD_wf, ?_⟩
      intro n hn
      simp [countPD, PD.shape] at hn
  · intro d hd
    simp only [List.mem_cons, List.not_mem_nil, or_false] at hd
    rcases hd with rfl | rfl
    · show "order".toList ∉ [['x']]; decide
    · show "order".toList ∉ [['n']]; decide
  · intro d hd k v hv
    simp only [List.mem_cons, List.not_mem_nil, or_false] at hd
    rcases hd with rfl | rfl
    · simp only [sample1, PD.vals, List.mem_singleton, Prod.mk.injEq] at hv
      rw [hv.2]; trivial
    · simp only [countPD, PD.vals, List.mem_singleton, Prod.mk.injEq] at hv
      rw [hv.2]; show (0 : ℤ) ≤ 3; decide

/-- After writing p(x) and p(n={3}), the order is lost when they are read back and the
serialised form can no longer be deserialised. -/
example : (∃ rs, deserialise (fun _ => ['0']) (serView (initCells [sample1, countPD]) (serialise [sample1, countPD])) =
      .ok rs ∧ rs.length = 2) ∧
    (∃ cells file rs, writeDist [sample1, countPD] = .ok (cells, file) ∧ readDist (fun _ => ['0']) file = .ok rs ∧
      ¬ List.Forall₂ Spec.Restored [sample1, countPD] rs) ∧
    ∃ cells file, writeDist [sample1, countPD] = .ok (cells, file) ∧
      Raises (deserialise (fun _ => ['0']) (serView cells (serialise [sample1, countPD]))) := by
  obtain ⟨h1, h2, h3, h4⟩ := serial_hyps
  refine ⟨?_, ?_, ?_⟩
  · obtain ⟨rs, r1, r2⟩ := C29_memory _ _ h1 h2
    exact ⟨rs, r1, by rw [← r2.length_eq]; rfl⟩
  · refine C29_order_lost _ (fun _ => rfl) _ h1 h2 h3 h4 ?_
    show ¬ List.Pairwise (· ≤ ·) [['x'], ['n']]
    decide
  · exact C29_after_write_raises _ _ h2 h4 countPD (by simp) ['n'] (by simp [countPD, PD.dims])

/-- p(k={n}). -/
noncomputable def countOf (k : Str) (n : ℤ) : PD :=
  ⟨k ++ "=0".toList, [(k, k ++ "=0".toList)], [],
   ⟨[(k, .setint n)], [(k, none)], 0, [], [], 1, [true], true⟩, ⟨[], fun _ => 1⟩, .lin 1⟩

/-- A variable called "order" is written but cannot be read, a negative count cannot be
written. -/
example : (∃ cells file, writeDist [countOf "order".toList 2] = .ok (cells, file) ∧
      Raises (readDist (fun _ => ['0']) file)) ∧ Raises (writeDist [countOf ['n'] (-2)]) := by
  constructor
  · refine C29_named_order_raises _ _ ?_ (by simp) ?_ (countOf "order".toList 2) (by simp) ?_ ?_
    · intro d hd
      rw [List.mem_singleton] at hd
      subst hd
      exact PD.wf_of_check rfl rfl (by simp [countOf, PScale.spec, evalPscale_one])
    · intro d hd k v hv
      rw [List.mem_singleton] at hd
      subst hd
      simp only [countOf, PD.vals, List.mem_singleton, Prod.mk.injEq] at hv
      rw [hv.2]; show (0 : ℤ) ≤ 2; decide
    · show ' ' ∉ "order".toList; decide
    · show "order".toList ∈ ["order".toList]; simp
  · exact C29_unstorable_raises _ (by simp) (countOf ['n'] (-2)) (by simp) ['n'] _ (by simp [countOf, PD.vals])
      (Or.inl ⟨-2, by decide, rfl⟩)

end Probayes
