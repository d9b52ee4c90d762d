/-
C28 (renaming the variables of a distribution).
-/
import Verif.Lemmas.PDDrop
import Verif.Props.PDSort

namespace Probayes

theorem Dict.get?_mapKeys {K V W : Type _} [DecidableEq K] (f : K → K) (g : K → V → W) {d : Dict K V}
    (hn : ((Dict.keys d).map f).Nodup) {k : K} (hk : k ∈ Dict.keys d) :
    Dict.get? (d.map fun kv => (f kv.1, g kv.1 kv.2)) (f k) = (Dict.get? d k).map (g k) := by
  induction d with
  | nil => simp at hk
  | cons kv d ih =>
    obtain ⟨k', v⟩ := kv
    simp only [Dict.keys_cons, List.map_cons, List.nodup_cons, List.mem_cons] at hn hk
    by_cases h : k' = k
    · subst h; simp [Dict.get?]
    · have hk' := hk.resolve_left (Ne.symm h)
      have hne : f k' ≠ f k := by
        intro hc; exact hn.1 (List.mem_map.mpr ⟨k, hk', hc.symm⟩)
      simp only [List.map_cons, Dict.get?, hne, if_false, h]
      exact ih hn.2 hk'

/-- The new names can be used as names of variables. -/
def Spec.Names (keymap : Dict Str Str) (keys : List Str) : Prop :=
  ∀ k ∈ keys, ∀ k', Dict.get? keymap k = some k' →
    k' ≠ [] ∧ ',' ∉ k' ∧ '|' ∉ k' ∧ '(' ∉ k' ∧ ')' ∉ k' ∧ '=' ∉ k' ∧ k' ∉ disallowed

/-- `r` is `d` with the variables renamed, and nothing else changed. -/
structure Spec.Renamed (d : PD) (f : Str → Str) (r : PD) : Prop where
  keylist : r.keylist = d.keylist.map f
  marg : r.marg.keys = d.marg.keys.map f
  cond : r.cond.keys = d.cond.keys.map f
  values : ∀ k ∈ d.keylist, r.values (f k) = d.values k
  axis : ∀ k ∈ d.keylist, r.axis (f k) = d.axis k
  shape : r.shape = d.shape
  prob : r.prob = d.prob
  pscale : r.pscale = d.pscale

theorem entry_rename {keymap : Dict Str Str} {k s : Str} (h : Spec.Entry k s)
    (hk : ∀ k', Dict.get? keymap k = some k' →
      k' ≠ [] ∧ ',' ∉ k' ∧ '|' ∉ k' ∧ '(' ∉ k' ∧ ')' ∉ k' ∧ '=' ∉ k' ∧ k' ∉ disallowed) :
    Spec.Entry (Spec.rename keymap k) (Spec.renameText keymap k s) := by
  rcases hg : Dict.get? keymap k with _ | k'
  · have hr : Spec.rename keymap k = k := by simp [Spec.rename, hg]
    have ht : Spec.renameText keymap k s = s := by
      simp only [Spec.renameText, hr]
      split
      · rename_i hs; exact hs.symm
      · rename_i hs
        rcases h.key with ⟨⟨v, hv⟩, _⟩ | ⟨hv, _⟩
        · rw [hv]; simp
        · exact absurd hv hs
    rw [hr, ht]; exact h
  · have hr : Spec.rename keymap k = k' := by simp [Spec.rename, hg]
    obtain ⟨h1, h2, h3, h4, h5, h6, _⟩ := hk k' hg
    simp only [Spec.renameText, hr]
    split
    · exact entry_plain h1 h2 h3 h4 h5 h6
    · rename_i hs
      rcases h.key with ⟨⟨v, hv⟩, _⟩ | ⟨hv, _⟩
      · have hd : s.drop k.length = '=' :: v := by rw [hv]; simp
        have hsub : ∀ c, c ∈ '=' :: v → c ∈ s := fun c hc => by rw [hv]; exact List.mem_append_right _ hc
        rw [hd]
        refine entry_value h1 ?_ ?_ ?_ ?_ h6 <;> rw [List.mem_append, not_or]
        · exact ⟨h2, fun hc => h.comma (hsub _ hc)⟩
        · exact ⟨h3, fun hc => h.bar (hsub _ hc)⟩
        · exact ⟨h4, fun hc => h.lparen (hsub _ hc)⟩
        · exact ⟨h5, fun hc => h.rparen (hsub _ hc)⟩
      · exact absurd hv hs

theorem renameText_eq (fmt : Val → Str) (keymap : Dict Str Str) (k : Str) (v : Val) :
    Spec.renameText keymap k (eqText fmt k v) = eqText fmt (Spec.rename keymap k) v := by
  have : eqText fmt k v ≠ k := by
    intro hc
    have := congrArg List.length hc
    simp [eqText] at this
  simp [Spec.renameText, this]
  simp [eqText]

theorem rekeyLoop {d : PD} (keymap : Dict Str Str)
    (hd : ∀ k ∈ d.keylist, ∃ o, Dict.get? d.dims k = some o)
    (hn : (d.keylist.map (Spec.rename keymap)).Nodup) :
    d.vals.foldlM (rekeyStep d keymap) ([], []) =
      .ok (d.vals.map (fun kv => (Spec.rename keymap kv.1, kv.2)),
        d.vals.map (fun kv => (Spec.rename keymap kv.1, d.axis kv.1))) := by
  obtain ⟨st, h1, h2, h3⟩ := foldlM_prefix (f := rekeyStep d keymap) (l := d.vals) (s0 := ([], []))
    (fun pre st => st.1 = pre.map (fun kv => (Spec.rename keymap kv.1, kv.2)) ∧
      st.2 = pre.map (fun kv => (Spec.rename keymap kv.1, d.axis kv.1))) (by simp) (by
      rintro pre ⟨k, v⟩ post ⟨vs, ds⟩ hl ⟨hI1, hI2⟩
      simp only at hI1 hI2
      obtain ⟨o, ho⟩ := hd k (by show k ∈ Dict.keys d.vals; rw [hl, Dict.keys_append]; simp)
      have ha : d.axis k = o := by simp [PD.axis, ho]
      have hnk : Spec.rename keymap k ∉ (Dict.keys pre).map (Spec.rename keymap) := by
        intro hc
        have hn' := hn
        rw [show d.keylist = Dict.keys pre ++ k :: Dict.keys post by
          show Dict.keys d.vals = _; rw [hl, Dict.keys_append]; rfl, List.map_append,
          List.nodup_append] at hn'
        exact hn'.2.2 _ hc _ (by simp) rfl
      have hk1 : Spec.rename keymap k ∉ Dict.keys vs := by
        rw [hI1]; simpa [Dict.keys] using hnk
      have hk2 : Spec.rename keymap k ∉ Dict.keys ds := by
        rw [hI2]; simpa [Dict.keys] using hnk
      refine ⟨(vs ++ [(Spec.rename keymap k, v)], ds ++ [(Spec.rename keymap k, o)]), ?_, ?_, ?_⟩
      · simp only [rekeyStep, dimOf, ho, bind, Except.bind]
        rcases hg : Dict.get? keymap k with _ | k'
        · have hr : Spec.rename keymap k = k := by simp [Spec.rename, hg]
          rw [hr] at hk1 hk2
          simp only [hr, Dict.set_of_notMem hk1, Dict.set_of_notMem hk2, pure, Except.pure]
        · have hr : Spec.rename keymap k = k' := by simp [Spec.rename, hg]
          rw [hr] at hk1 hk2
          simp only [hr, hk1, if_false, Dict.set_of_notMem hk1, Dict.set_of_notMem hk2, pure, Except.pure]
      · simp [hI1]
      · simp [hI2, ha])
  rw [h1, ← h2, ← h3]

/-- C28: a map that gives distinct usable names renames the variables in the name,
the values and the dimensions, and changes nothing else. -/
theorem C28_rekey (fmt : Val → Str) (d : PD) (keymap : Dict Str Str) (h : d.WF fmt) (hpos : d.Pos)
    (hn : (d.keylist.map (Spec.rename keymap)).Nodup) (hnames : Spec.Names keymap d.keylist) :
    ∃ r, d.rekey fmt keymap = .ok r ∧ r.WF fmt ∧ Spec.Renamed d (Spec.rename keymap) r ∧
      (∀ k s, Dict.get? d.marg k = some s →
        Dict.get? r.marg (Spec.rename keymap k) = some (Spec.renameText keymap k s)) ∧
      (∀ k s, Dict.get? d.cond k = some s →
        Dict.get? r.cond (Spec.rename keymap k) = some (Spec.renameText keymap k s)) ∧
      ∀ i, r.at i = d.at i := by
  set f := Spec.rename keymap with hf
  have hinj : ∀ k ∈ d.keylist, ∀ k' ∈ d.keylist, f k = f k' → k = k' :=
    fun k hk k' hk' he => List.inj_on_of_nodup_map hn hk hk' he
  have hmin : ∀ k ∈ Dict.keys d.marg, k ∈ d.keylist := fun k hk => (h.keys k).mpr (Or.inl hk)
  have hcin : ∀ k ∈ Dict.keys d.cond, k ∈ d.keylist := fun k hk => (h.keys k).mpr (Or.inr hk)
  have hmn : ((Dict.keys d.marg).map f).Nodup :=
    (List.nodup_map_iff_inj_on h.margSide.1).mpr fun x hx y hy => hinj x (hmin x hx) y (hmin y hy)
  have hcn : ((Dict.keys d.cond).map f).Nodup :=
    (List.nodup_map_iff_inj_on h.condSide.1).mpr fun x hx y hy => hinj x (hcin x hx) y (hcin y hy)
  have hdo : ∀ k ∈ d.keylist, ∃ o, Dict.get? d.dims k = some o := by
    intro k hk
    obtain ⟨v, hm⟩ := Dict.get?_of_mem_keys hk
    rcases hs : v.issingleton with _ | _
    · obtain ⟨a, _, _, _, _, h2, _⟩ := h.array k v hm hs; exact ⟨_, h2⟩
    · exact ⟨_, (h.single k v hm hs).1⟩
  have hloop := rekeyLoop keymap hdo hn
  set V : Dict Str Val := d.vals.map (fun kv => (f kv.1, kv.2)) with hV
  set D : Dict Str (Option ℕ) := d.vals.map (fun kv => (f kv.1, d.axis kv.1)) with hD
  set M : Dict Str Str := d.marg.map fun kv => (f kv.1, Spec.renameText keymap kv.1 kv.2) with hM
  set C : Dict Str Str := d.cond.map fun kv => (f kv.1, Spec.renameText keymap kv.1 kv.2) with hC
  have hm1 : rekeyDict d.marg keymap = .ok M := C28_rekeyDict keymap d.marg h.margSide hmn
  have hc1 : rekeyDict d.cond keymap = .ok C := C28_rekeyDict keymap d.cond h.condSide hcn
  have hVk : Dict.keys V = d.keylist.map f := by simp [hV, Dict.keys, PD.keylist]
  have hDk : Dict.keys D = d.keylist.map f := by simp [hD, Dict.keys, PD.keylist]
  have hMk : Dict.keys M = (Dict.keys d.marg).map f := by simp [hM, Dict.keys]
  have hCk : Dict.keys C = (Dict.keys d.cond).map f := by simp [hC, Dict.keys]
  have gV : ∀ k ∈ d.keylist, Dict.get? V (f k) = Dict.get? d.vals k := by
    intro k hk
    rw [hV, Dict.get?_mapKeys f (fun _ v => v) hn hk]; simp
  have gD : ∀ k ∈ d.keylist, Dict.get? D (f k) = some (d.axis k) := by
    intro k hk
    rw [hD, Dict.get?_mapKeys f (fun k _ => d.axis k) hn hk]
    obtain ⟨v, hv⟩ := Dict.get?_of_mem_keys hk
    rw [hv]; rfl
  have gM : ∀ k ∈ Dict.keys d.marg, Dict.get? M (f k) = (Dict.get? d.marg k).map (Spec.renameText keymap k) :=
    fun k hk => Dict.get?_mapKeys f (fun k s => Spec.renameText keymap k s) hmn hk
  have gC : ∀ k ∈ Dict.keys d.cond, Dict.get? C (f k) = (Dict.get? d.cond k).map (Spec.renameText keymap k) :=
    fun k hk => Dict.get?_mapKeys f (fun k s => Spec.renameText keymap k s) hcn hk
  have hbuild : BuildArgs fmt M C V D d.shape := by
    refine ⟨?_, ?_, ?_, ⟨?_, ?_⟩, ⟨?_, ?_⟩, ?_, ?_, ?_, ?_, ?_, ?_, ?_⟩
    · have := h.ne; simpa [hV] using this
    · show (Dict.keys V).Nodup; rw [hVk]; exact hn
    · intro k hk
      have hk' : k ∈ Dict.keys V := hk
      rw [hVk] at hk'
      obtain ⟨k0, hk0, rfl⟩ := List.mem_map.mp hk'
      rcases hg : Dict.get? keymap k0 with _ | k'
      · have : f k0 = k0 := by simp [hf, Spec.rename, hg]
        rw [this]; exact h.allowed k0 hk0
      · have : f k0 = k' := by simp [hf, Spec.rename, hg]
        rw [this]; exact (hnames k0 hk0 k' hg).2.2.2.2.2.2
    · show (Dict.keys M).Nodup; rw [hMk]; exact hmn
    · intro kv hkv
      obtain ⟨⟨k, s⟩, hks, rfl⟩ := List.mem_map.mp hkv
      exact entry_rename (h.margSide.2 _ hks) (hnames k (hmin k (List.mem_map.mpr ⟨_, hks, rfl⟩)))
    · show (Dict.keys C).Nodup; rw [hCk]; exact hcn
    · intro kv hkv
      obtain ⟨⟨k, s⟩, hks, rfl⟩ := List.mem_map.mp hkv
      exact entry_rename (h.condSide.2 _ hks) (hnames k (hcin k (List.mem_map.mpr ⟨_, hks, rfl⟩)))
    · intro k hk hk2
      have hk' : k ∈ Dict.keys M := hk
      have hk2' : k ∈ Dict.keys C := hk2
      rw [hMk] at hk'
      rw [hCk] at hk2'
      obtain ⟨k0, hk0, rfl⟩ := List.mem_map.mp hk'
      obtain ⟨k1, hk1, he⟩ := List.mem_map.mp hk2'
      have := hinj k1 (hcin k1 hk1) k0 (hmin k0 hk0) he
      subst this
      exact h.disj _ hk0 hk1
    · intro k
      show k ∈ Dict.keys V ↔ k ∈ Dict.keys M ∨ k ∈ Dict.keys C
      rw [hVk, hMk, hCk, List.mem_map, List.mem_map, List.mem_map]
      constructor
      · rintro ⟨k0, hk0, rfl⟩
        rcases (h.keys k0).mp hk0 with hk | hk
        · exact Or.inl ⟨k0, hk, rfl⟩
        · exact Or.inr ⟨k0, hk, rfl⟩
      · rintro (⟨k0, hk0, rfl⟩ | ⟨k0, hk0, rfl⟩)
        · exact ⟨k0, hmin k0 hk0, rfl⟩
        · exact ⟨k0, hcin k0 hk0, rfl⟩
    · show (Dict.keys D).Nodup; rw [hDk]; exact hn
    · intro k hk
      show k ∈ Dict.keys V
      rw [hVk, ← hDk]; exact hk
    · intro k v hv hs
      have hk' : k ∈ Dict.keys V := Dict.mem_keys_of_get? hv
      rw [hVk] at hk'
      obtain ⟨k0, hk0, rfl⟩ := List.mem_map.mp hk'
      rw [gV k0 hk0] at hv
      refine ⟨by rw [gD k0 hk0, h.axis_none hv hs]; rfl, ?_⟩
      rcases (h.single k0 v hv hs).2 with e | e
      · left; rw [gM k0 (Dict.mem_keys_of_get? e), e]; simp [renameText_eq, hf]
      · right; rw [gC k0 (Dict.mem_keys_of_get? e), e]; simp [renameText_eq, hf]
    · intro k v hv hs
      have hk' : k ∈ Dict.keys V := Dict.mem_keys_of_get? hv
      rw [hVk] at hk'
      obtain ⟨k0, hk0, rfl⟩ := List.mem_map.mp hk'
      rw [gV k0 hk0] at hv
      obtain ⟨s, data, a, e1, e2, e3, e4⟩ := h.size_ok hpos hv hs
      exact ⟨s, data, a, e1, e2, by rw [gD k0 hk0, PD.axis, e3]; rfl, e4⟩
    · intro a ha
      rw [h.rank] at ha
      obtain ⟨k, hk⟩ := h.cover a ha
      have hkl : k ∈ d.keylist := h.dimKeys k (Dict.mem_keys_of_get? (join_eq_some.mp hk))
      exact ⟨f k, by rw [gD k hkl, hk]; rfl⟩
  obtain ⟨r0, a1, a2, a3, a4, a5, a6, a7, a8, a9⟩ := pdInit_ok hbuild d.prob h.probShape d.pscale.spec d.pscale h.stable
  have hdist : distDims V (some D) = .ok r0.dist := (pdInit_inv a1).1
  have hpos0 : r0.Pos := by intro n hn; rw [a7] at hn; exact hpos n hn
  obtain ⟨r, b1, b2, b3, b4, b5, b6, b7, b8, b9⟩ := pdInit_ok (a2.buildArgs hpos0) r0.prob a2.probShape
    r0.pscale.spec r0.pscale a2.stable
  rw [a3] at b3
  rw [a4] at b4
  have haxis : ∀ k ∈ d.keylist, r.axis (f k) = d.axis k := by
    intro k hk
    rw [b6]
    show r0.axis (f k) = _
    rw [a6, gD k hk]; rfl
  refine ⟨r, ?_, b2, ⟨?_, ?_, ?_, ?_, haxis, b7.trans a7, b8.trans a8, b9.trans a9⟩, ?_, ?_, ?_⟩
  · rw [a3, a4, a8, a9] at b1
    simp only [PD.rekey, hloop, bind, Except.bind, hdist, hm1, hc1]
    exact b1
  · show Dict.keys r.vals = _
    rw [b5, Dict.keys_map, a5, Dict.keys_map]; exact hVk
  · rw [b3]; exact hMk
  · rw [b4]; exact hCk
  · intro k hk
    rw [(a2.buildArgs hpos0).values b5]
    show r0.values (f k) = _
    rw [hbuild.values a5, gV k hk]; rfl
  · intro k s hs
    rw [b3, gM k (Dict.mem_keys_of_get? hs), hs]; rfl
  · intro k s hs
    rw [b4, gC k (Dict.mem_keys_of_get? hs), hs]; rfl
  · intro i
    simp only [PD.at, b9, a9, b8, a8]

/-- C28: renaming several variables at once onto each other works too. -/
example : ∃ r, sample3.rekey (fun _ => ['1']) [(['x'], ['y']), (['y'], ['x']), (['u'], ['w'])] = .ok r ∧
    Spec.Renamed sample3 (Spec.rename [(['x'], ['y']), (['y'], ['x']), (['u'], ['w'])]) r := by
  obtain ⟨r, h1, _, h2, _⟩ := C28_rekey (fun _ => ['1']) sample3
    [(['x'], ['y']), (['y'], ['x']), (['u'], ['w'])] sample3_wf.1 sample3_pos (by decide) (by
      intro k _ k' hk
      have := Dict.get?_mem hk
      simp only [List.mem_cons, Prod.mk.injEq, List.not_mem_nil, or_false] at this
      rcases this with ⟨_, rfl⟩ | ⟨_, rfl⟩ | ⟨_, rfl⟩ <;> decide)
  exact ⟨r, h1, h2⟩

theorem foldlM_error {σ α : Type _} {f : σ → α → Py σ} (I : List α → σ → Prop) {l pre post : List α} {x : α}
    {s0 : σ} (hl : l = pre ++ x :: post) (h0 : I [] s0)
    (hstep : ∀ p y st st', I p st → f st y = .ok st' → I (p ++ [y]) st')
    (herr : ∀ st, I pre st → Raises (f st x)) : Raises (l.foldlM f s0) := by
  have aux : ∀ (b a : List α) (st : σ), pre = a ++ b → I a st → Raises ((b ++ x :: post).foldlM f st) := by
    intro b
    induction b with
    | nil =>
      intro a st hab hI
      rw [List.append_nil] at hab
      subst hab
      obtain ⟨e, he⟩ := herr st hI
      exact ⟨e, by rw [List.nil_append, List.foldlM_cons, he]; rfl⟩
    | cons y b ih =>
      intro a st hab hI
      rw [List.cons_append, List.foldlM_cons]
      rcases hy : f st y with e | st'
      · exact ⟨e, rfl⟩
      · exact ih (a ++ [y]) st' (by simpa using hab) (hstep a y st st' hI hy)
  rw [hl]
  exact aux pre [] s0 rfl h0

/-- C28 on merging, proved part: refused when the later of the two variables is
the one that is renamed.  (Otherwise: `C28_silent_merge`.) -/
theorem C28_merge_partial (fmt : Val → Str) (d : PD) (keymap : Dict Str Str) (pre post : Dict Str Val)
    (k k' : Str) (v : Val) (hl : d.vals = pre ++ (k, v) :: post) (hk' : k' ∈ Dict.keys pre)
    (hk : k ∈ keymap.keys) (hm : Spec.rename keymap k = Spec.rename keymap k') :
    Raises (d.rekey fmt keymap) := by
  have : Raises (d.vals.foldlM (rekeyStep d keymap) ([], [])) := by
    refine foldlM_error (fun pre st => ∀ k ∈ Dict.keys pre, Spec.rename keymap k ∈ Dict.keys st.1)
      hl (by simp) ?_ ?_
    · rintro p ⟨k2, v2⟩ ⟨vs, ds⟩ st' hI hok
      simp only [rekeyStep, bind, Except.bind] at hok
      rcases ho : dimOf d.dims k2 with e | o
      · simp [ho] at hok
      · simp only [ho] at hok
        have hmem : ∀ key val, Dict.keys st'.1 = Dict.keys (Dict.set vs key val) →
            Spec.rename keymap k2 = key →
            ∀ k ∈ Dict.keys (p ++ [(k2, v2)]), Spec.rename keymap k ∈ Dict.keys st'.1 := by
          intro key val he hr k hk
          rw [he, Dict.keys_set]
          rw [Dict.keys_append, List.mem_append] at hk
          have hcase : Spec.rename keymap k ∈ Dict.keys vs ∨ Spec.rename keymap k = key := by
            rcases hk with hk | hk
            · exact Or.inl (hI k hk)
            · simp only [Dict.keys_cons, Dict.keys_nil, List.mem_singleton] at hk
              subst hk; exact Or.inr hr
          split
          · rename_i hin
            rcases hcase with hc | hc
            · exact hc
            · rw [hc]; exact hin
          · rw [List.mem_append, List.mem_singleton]; exact hcase
        rcases hg : Dict.get? keymap k2 with _ | mk
        · simp only [hg, pure, Except.pure, Except.ok.injEq] at hok
          exact hmem k2 v2 (by rw [← hok]) (by simp [Spec.rename, hg])
        · simp only [hg] at hok
          split at hok
          · simp at hok
          · simp only [pure, Except.pure, Except.ok.injEq] at hok
            exact hmem mk v2 (by rw [← hok]) (by simp [Spec.rename, hg])
    · rintro ⟨vs, ds⟩ hI
      obtain ⟨mk, hg⟩ := Dict.get?_of_mem_keys hk
      have hr : Spec.rename keymap k = mk := by simp [Spec.rename, hg]
      have hin := hI k' hk'
      rw [← hm, hr] at hin
      simp only at hin
      simp only [rekeyStep, bind, Except.bind]
      rcases dimOf d.dims k with e | o
      · exact ⟨e, rfl⟩
      · exact ⟨.assertion, by simp only [hg, hin, if_true]⟩
  obtain ⟨e, he⟩ := this
  exact ⟨e, by simp [PD.rekey, he, bind, Except.bind]⟩

/-- C28 for one side of a name: a renamed key that meets an earlier one is
refused. -/
theorem C28_dict_merge_partial (keymap d pre post : Dict Str Str) (k k' t : Str)
    (hl : d = pre ++ (k, t) :: post) (hk' : k' ∈ Dict.keys pre) (hk : k ∈ keymap.keys)
    (hm : Spec.rename keymap k = Spec.rename keymap k') : Raises (rekeyDict d keymap) := by
  unfold rekeyDict
  refine foldlM_error (fun pre st => ∀ k ∈ Dict.keys pre, Spec.rename keymap k ∈ Dict.keys st)
    hl (by simp) ?_ ?_
  · rintro p ⟨k2, v2⟩ st st' hI hok
    have hmem : ∀ key val, st' = Dict.set st key val → Spec.rename keymap k2 = key →
        ∀ k ∈ Dict.keys (p ++ [(k2, v2)]), Spec.rename keymap k ∈ Dict.keys st' := by
      intro key val he hr k hk
      rw [he, Dict.keys_set]
      rw [Dict.keys_append, List.mem_append] at hk
      have hcase : Spec.rename keymap k ∈ Dict.keys st ∨ Spec.rename keymap k = key := by
        rcases hk with hk | hk
        · exact Or.inl (hI k hk)
        · simp only [Dict.keys_cons, Dict.keys_nil, List.mem_singleton] at hk
          subst hk; exact Or.inr hr
      split
      · rename_i hin
        rcases hcase with hc | hc
        · exact hc
        · rw [hc]; exact hin
      · rw [List.mem_append, List.mem_singleton]; exact hcase
    unfold rekeyDictStep at hok
    dsimp only at hok
    rcases hg : Dict.get? keymap k2 with _ | mk
    · simp only [hg, Except.ok.injEq] at hok
      exact hmem k2 v2 hok.symm (by simp [Spec.rename, hg])
    · simp only [hg] at hok
      split at hok
      · simp at hok
      · simp only [Except.ok.injEq] at hok
        exact hmem mk _ hok.symm (by simp [Spec.rename, hg])
  · intro st hI
    obtain ⟨mk, hg⟩ := Dict.get?_of_mem_keys hk
    have hr : Spec.rename keymap k = mk := by simp [Spec.rename, hg]
    have hin := hI k' hk'
    rw [← hm, hr] at hin
    unfold rekeyDictStep
    exact ⟨.assertion, by simp only [hg, hin, if_true]⟩

/-- Non-vacuity of `C28_dict_merge_partial`: renaming y to x in "x,y". -/
example : Raises (rekeyDict [(['x'], ['x']), (['y'], ['y'])] [(['y'], ['x'])]) :=
  C28_dict_merge_partial _ _ [(['x'], ['x'])] [] ['y'] ['x'] ['y'] rfl (by decide) (by decide) (by decide)

/-- Non-vacuity of `C28_merge_partial`: renaming y to x in p(x, y). -/
example : Raises (sample3.rekey (fun _ => ['1']) [(['y'], ['x'])]) :=
  C28_merge_partial _ sample3 _ [(['x'], .arr [2] [1, 2])] [(['u'], .scalar 1), (['z'], .arr [1, 1, 2] [7, 8])]
    ['y'] ['x'] (.arr [1, 3] [4, 5, 6]) rfl (by decide) (by decide) (by decide)

/-- C28 fails: renaming u to x in p(u=1, x) is accepted and drops u. -/
theorem C28_silent_merge : ∃ d r, pdInit (fun _ => ['1']) ['u', ',', 'x']
      [(['u'], .scalar 1), (['x'], .arr [2] [3, 4])] none ⟨[2], fun _ => 1 / 2⟩ .none = .ok d ∧
    d.keylist = [['u'], ['x']] ∧ d.rekey (fun _ => ['1']) [(['u'], ['x'])] = .ok r ∧
    r.keylist = [['x']] ∧ r.name = ['x'] := by
  let d : PD := ⟨['u', '=', '1', ',', 'x'], [(['u'], ['u', '=', '1']), (['x'], ['x'])], [],
    ⟨[(['u'], .scalar 1), (['x'], .arr [2] [3, 4])], [(['u'], none), (['x'], some 0)],
     1, [2], [2], 2, [true, false], false⟩, ⟨[2], fun _ => 1 / 2⟩, .lin 1⟩
  let r : PD := ⟨['x'], [(['x'], ['x'])], [],
    ⟨[(['x'], .arr [2] [3, 4])], [(['x'], some 0)],
     1, [2], [2], 2, [false], false⟩, ⟨[2], fun _ => 1 / 2⟩, .lin 1⟩
  refine ⟨d, r, (pdInit_eval (mc := ([(['u'], ['u']), (['x'], ['x'])], [])) (dist := d.dist)
    (mc' := (d.marg, [])) (p := .lin 1) rfl rfl rfl rfl rfl).trans rfl, rfl, ?_, rfl, rfl⟩
  have h1 : d.vals.foldlM (rekeyStep d [(['u'], ['x'])]) ([], []) =
    .ok ([(['x'], .arr [2] [3, 4])], [(['x'], some 0)]) := rfl
  have h2 : distDims [(['x'], .arr [2] [3, 4])] (some [(['x'], some 0)]) = .ok r.dist := rfl
  have h3 : rekeyDict d.marg [(['u'], ['x'])] = .ok r.marg := rfl
  have h4 : rekeyDict d.cond [(['u'], ['x'])] = .ok [] := rfl
  have hps : evalPscale d.pscale.spec = .ok (.lin 1) := by simp [d, PScale.spec, evalPscale_one]
  simp only [PD.rekey, h1, h2, h3, h4, bind, Except.bind]
  exact (pdInit_eval (mc := (r.marg, [])) (dist := r.dist) (mc' := (r.marg, [])) (p := .lin 1)
    rfl rfl rfl hps rfl).trans rfl

end Probayes
