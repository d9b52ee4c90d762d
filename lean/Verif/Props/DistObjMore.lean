/-
C91: which distributions are accepted, multivariate ones, and the negations.
-/
import Verif.Props.DistObj

namespace Probayes

variable {V : Type}

/-! ### Acceptance -/

theorem fix_ok (d : DistObj V) (own : Call V) (L : List Str) (h : ∀ m ∈ L, ∃ f, d.meths.get? m = some f) :
    ∃ p, (L.mapM fun m => match d.meths.get? m with
      | some f => (Except.ok (m, ⟨f, own⟩) : Py (Str × Fixed V))
      | none => .error .attribute) = .ok p := by
  induction L with
  | nil => exact ⟨[], rfl⟩
  | cons a L ih =>
    obtain ⟨f, hf⟩ := h a (by simp)
    obtain ⟨p, hp⟩ := ih fun m hm => h m (by simp [hm])
    exact ⟨(a, ⟨f, own⟩) :: p, by rw [List.mapM_cons, hp]; simp [hf, bind, Except.bind, pure, Except.pure]⟩

theorem distPartials_ok (attrs : List Str) (d : DistObj V) (own : Call V)
    (h : ∀ m ∈ Spec.libraryNames, m ∈ attrs → ∃ f, d.meths.get? m = some f)
    (h1 : "pdf".toList ∈ attrs → "logpdf".toList ∈ attrs) (h2 : "pmf".toList ∈ attrs → "logpmf".toList ∈ attrs) :
    ∃ p, distPartials attrs d own = .ok p := by
  obtain ⟨q, hq⟩ : ∃ q, fixMethods attrs d own = .ok q := by
    apply fix_ok
    intro m hm
    simp only [List.mem_filter, decide_eq_true_eq] at hm
    exact h m hm.1 hm.2
  have hget := fixMethods_get hq
  have hin : ∀ m, m ∈ Spec.libraryNames → m ∈ attrs → ∃ f, q.get? m = some f := by
    intro m m1 m2
    obtain ⟨f, hf⟩ := h m m1 m2
    exact ⟨⟨f, own⟩, by rw [hget, if_pos ⟨m1, m2⟩, hf]; rfl⟩
  have hof : ∀ m f, q.get? m = some f → m ∈ attrs := by
    intro m f hf
    rw [hget] at hf
    split at hf
    · rename_i hc; exact hc.2
    · cases hf
  unfold distPartials
  simp only [hq, bind, Except.bind, commonNames]
  rcases hp : q.get? "pdf".toList with _ | f
  · rcases hm : q.get? "pmf".toList with _ | f
    · exact ⟨_, rfl⟩
    · obtain ⟨g, hg⟩ := hin "logpmf".toList (by decide) (h2 (hof _ _ hm))
      simp only [hg]
      exact ⟨_, rfl⟩
  · obtain ⟨g, hg⟩ := hin "logpdf".toList (by decide) (h1 (hof _ _ hp))
    simp only [hg]
    exact ⟨_, rfl⟩

/-- What has no attributes named as functions of distributions: anything but some
objects. -/
def Spec.Bare : PGiven V → Prop
  | .obj attrs _ => attrs = []
  | .fn attrs _ _ _ _ => attrs = []
  | _ => True

theorem attrs_of_bare {s r : PState V} {g : PGiven V} {ps : PSpec} (hg : Spec.Bare g)
    (h : s.setProb g ps = .ok r) : r.attrs = [] := by
  unfold PState.setProb at h
  simp only [bind, Except.bind] at h
  rcases ha : setScale s.scale ps with e | a
  · simp [ha] at h
  simp only [ha] at h
  cases g with
  | obj attrs v => simp only [pure, Except.pure, Except.ok.injEq] at h; subst h; exact hg
  | scalar v => simp only [pure, Except.pure, Except.ok.injEq] at h; subst h; rfl
  | fn attrs f own order delta =>
    simp only at h
    rcases hm : setMaps ⟨none, none⟩ order delta with e | m
    · simp [hm] at h
    simp only [hm, pure, Except.pure, Except.ok.injEq] at h; subst h; exact hg
  | univ d own order delta =>
    simp only at h
    split at h
    · cases h
    · split at h
      · cases h
      · split at h
        · cases h
        · exact (finishDist_inv h).2.2.2.1
  | mvar gen make own order delta =>
    simp only at h
    split at h
    · cases h
    · split at h
      · cases h
      · split at h
        · cases h
        · exact (finishDist_inv h).2.2.2.1

theorem attrs_bare_run (s r : PState V) (l : List (PGiven V × PSpec)) (hs : s.attrs = [])
    (hl : ∀ o, l.getLast? = some o → Spec.Bare o.1) (h : s.run l = .ok r) : r.attrs = [] := by
  rcases List.eq_nil_or_concat' l with rfl | ⟨l', o, rfl⟩
  · cases h; exact hs
  · obtain ⟨g, ps⟩ := o
    obtain ⟨m, -, hm⟩ := run_last s l' g ps r h
    exact attrs_of_bare (hl (g, ps) (by simp)) hm

theorem finishDist_ok {s : PState V} {d : DistObj V} {own : Call V}
    (h : ∃ f, s.partials.get? (denKey s.scale) = some f) : ∃ r, finishDist s d own = .ok r := by
  obtain ⟨f, hf⟩ := h
  rcases h : finishDist s d own with e | r
  · exfalso
    unfold finishDist at h
    change (match s.partials.get? (denKey s.scale) with
      | none => (Except.error Err.key : Py (PState V))
      | some _ => _) = _ at h
    simp only [hf] at h
    split at h <;> cases h
  · exact ⟨r, rfl⟩

theorem univ_ok (s : PState V) (d : DistObj V) (own : Call V) (ps : PSpec) (a : PScale)
    (ha : setScale s.scale ps = .ok a) (h0 : s.attrs = []) (f g : Meth V) (hf : Spec.DensityOf d false f)
    (hg : Spec.DensityOf d true g)
    (h1 : ∀ u, Spec.HasFn d "pmf" u → ∃ v, Spec.HasFn d "logpmf" v) :
    ∃ r, s.setProb (.univ d own none none) ps = .ok r := by
  have hk : ∀ (n : String) (F : Meth V), Spec.HasFn d n F → n.toList ∈ d.meths.keys := fun n F hF =>
    Dict.get?_isSome.mp (by rw [hF]; rfl)
  have hk' : ∀ (n : String), n.toList ∈ d.meths.keys → ∃ F, Spec.HasFn d n F := fun n hn =>
    Option.isSome_iff_exists.mp (Dict.get?_isSome.mpr hn)
  obtain ⟨q, hq⟩ := distPartials_ok s.attrs d own (by simp [h0]) (by simp [h0]) (by simp [h0])
  have hpl : ∀ u, Spec.HasFn d "pdf" u → ∃ v, Spec.HasFn d "logpdf" v := by
    intro u hu
    cases hg with
    | logpdf _ _ _ h => exact ⟨_, h⟩
    | logpmf _ h _ => exact absurd hu (h u)
  obtain ⟨p, hp⟩ := distPartials_ok d.meths.keys d own
    (fun m _ hm => Option.isSome_iff_exists.mp (Dict.get?_isSome.mpr hm))
    (fun hm => by
      obtain ⟨F, hF⟩ := hk' "pdf" hm
      obtain ⟨G, hG⟩ := hpl F hF
      exact hk _ G hG)
    (fun hm => by
      obtain ⟨F, hF⟩ := hk' "pmf" hm
      obtain ⟨G, hG⟩ := h1 F hF
      exact hk _ G hG)
  have hex : ∃ u, p.get? (denKey (some a)) = some u := by
    rcases (distPartials_get hp).2 with ⟨F, G, -, -, -, -, c1, c2⟩ | ⟨F, G, -, -, -, -, -, c1, c2⟩ | ⟨c1, c2⟩
    · rw [denKey_eq]; split
      · exact ⟨_, c2⟩
      · exact ⟨_, c1⟩
    · rw [denKey_eq]; split
      · exact ⟨_, c2⟩
      · exact ⟨_, c1⟩
    · exfalso
      have hget := (distPartials_get hp).1
      unfold distPartials at hp
      rcases hm : fixMethods d.meths.keys d own with e | m
      · simp [hm, bind, Except.bind] at hp
      · have hmg := fixMethods_get hm
        simp only [hm, bind, Except.bind, commonNames] at hp
        have hsome : ∀ (n : String) (F : Meth V), n.toList ∈ Spec.libraryNames → Spec.HasFn d n F →
            m.get? n.toList = some ⟨F, own⟩ := by
          intro n F hn hF
          rw [hmg, if_pos ⟨hn, hk n F hF⟩, hF]; rfl
        have happ : ∀ (f g : Fixed V), ∃ u,
            Dict.get? (m ++ [("prob".toList, f), ("logp".toList, g)]) "prob".toList = some u := by
          intro f g
          rw [Dict.get?_append]
          cases Dict.get? m "prob".toList with
          | some u => exact ⟨u, rfl⟩
          | none => exact ⟨f, by simp [Dict.get?]⟩
        cases hf with
        | pdf _ h =>
          rw [hsome "pdf" f (by decide) h] at hp
          obtain ⟨v, hv⟩ := hpl f h
          rw [hsome "logpdf" v (by decide) hv] at hp
          simp only [Except.ok.injEq] at hp
          obtain ⟨u, hu⟩ := happ ⟨f, own⟩ ⟨v, own⟩
          rw [hp, c1] at hu
          cases hu
        | pmf _ hno h =>
          have hn : m.get? "pdf".toList = none := by
            rw [hmg]
            split
            · have : d.meths.get? "pdf".toList = none := by
                rcases hd : d.meths.get? "pdf".toList with _ | u
                · rfl
                · exact absurd hd (hno u)
              rw [this]; rfl
            · rfl
          rw [hn, hsome "pmf" f (by decide) h] at hp
          obtain ⟨v, hv⟩ := h1 f h
          rw [hsome "logpmf" v (by decide) hv] at hp
          simp only [Except.ok.injEq] at hp
          obtain ⟨u, hu⟩ := happ ⟨f, own⟩ ⟨v, own⟩
          rw [hp, c1] at hu
          cases hu
  unfold PState.setProb
  simp only [ha, bind, Except.bind, setMaps_none, hq, hp]
  exact finishDist_ok hex

/-- **C91, acceptance.**  A distribution with a density and its logarithm is accepted, after
any calls of which the last has not set an object with functions of its own. -/
theorem C91_accepted (nil : V) (l : List (PGiven V × PSpec)) (m : PState V) (hm : (PState.new nil).run l = .ok m)
    (hl : ∀ o, l.getLast? = some o → Spec.Bare o.1) (d : DistObj V) (own : Call V) (ps : PSpec) (a : PScale)
    (ha : setScale m.scale ps = .ok a) (f g : Meth V) (hf : Spec.DensityOf d false f) (hg : Spec.DensityOf d true g)
    (h1 : ∀ u, Spec.HasFn d "pmf" u → ∃ v, Spec.HasFn d "logpmf" v) :
    ∃ r, (PState.new nil).run (l ++ [(.univ d own none none, ps)]) = .ok r := by
  obtain ⟨r, hr⟩ := univ_ok m d own ps a ha (attrs_bare_run _ _ l rfl hl hm) f g hf hg h1
  refine ⟨r, ?_⟩
  suffices ∀ (l : List (PGiven V × PSpec)) (s m : PState V), s.run l = .ok m →
      m.setProb (.univ d own none none) ps = .ok r → s.run (l ++ [(.univ d own none none, ps)]) = .ok r from
    this l _ m hm hr
  intro l
  induction l with
  | nil => intro s m h1 h2; cases h1; simp [PState.run, h2, bind, Except.bind]
  | cons o l ih =>
    intro s m h1 h2
    obtain ⟨g, ps'⟩ := o
    simp only [List.cons_append, PState.run, bind, Except.bind] at h1 ⊢
    cases hs : s.setProb g ps' with
    | error e => rw [hs] at h1; cases h1
    | ok b => rw [hs] at h1; exact ih _ _ h1 h2

/-- **C91, acceptance.**  A distribution set in place of an object that has a function the
distribution has not, such as a frozen continuous distribution in place of which a
discrete one is set, is refused. -/
theorem C91_after_frozen (s m : PState V) (attrs : List Str) (v : V) (ps ps' : PSpec) (d : DistObj V) (own : Call V)
    (h : s.setProb (.obj attrs v) ps = .ok m) (name : Str) (hn : name ∈ Spec.libraryNames) (ha : name ∈ attrs)
    (hd : d.meths.get? name = none) (order delta : Option (Dict Str Route)) :
    Raises (m.setProb (.univ d own order delta) ps') := by
  rcases hr : m.setProb (.univ d own order delta) ps' with e | r
  · exact ⟨e, rfl⟩
  · exfalso
    obtain ⟨a, m', p, -, -, ⟨q, hq⟩, -⟩ := univ_inv hr
    have hma : m.attrs = attrs := by
      unfold PState.setProb at h
      simp only [bind, Except.bind] at h
      rcases ha : setScale s.scale ps with e | a
      · simp [ha] at h
      simp only [ha, pure, Except.pure, Except.ok.injEq] at h
      subst h; rfl
    unfold distPartials at hq
    rcases hf : fixMethods m.attrs d own with e | u
    · simp [hf, bind, Except.bind] at hq
    · obtain ⟨f, hf⟩ := fix_has d own _ u hf name
        (List.mem_filter.mpr ⟨hn, by simpa [hma] using ha⟩)
      rw [hd] at hf
      cases hf

/-! ### Names -/

/-- **C91 (intended), names.**  Indexing by the empty string gives the names of the
functions. -/
def C91_names_claim : Prop :=
  ∀ (d : DistObj ℝ) (params : Dict Str ℝ) (s : PState ℝ),
    (PState.new 0).run [(.univ d ⟨[], params⟩ none none, .none)] = .ok s →
    ∃ l, s.names = .ok l ∧ ∀ m ∈ Spec.libraryNames, m ∈ d.meths.keys → m ∈ l

/-- It gives the empty list. -/
theorem C91_names (s r : PState V) (d : DistObj V) (own : Call V) (order delta : Option (Dict Str Route)) (ps : PSpec)
    (h : s.setProb (.univ d own order delta) ps = .ok r) : r.names = .ok [] := by
  obtain ⟨a, m', p, -, -, -, -, -, -, -, -, h1, -⟩ := univ_inv h
  simp only [PState.names, h1]

/-! ### Multivariate distributions -/

theorem mvar_inv {s r : PState V} {gen : DistObj V} {make : Call V → Py (DistObj V)} {own : Call V}
    {order delta : Option (Dict Str Route)} {ps : PSpec} (h : s.setProb (.mvar gen make own order delta) ps = .ok r) :
    ∃ a m p d, setScale s.scale ps = .ok a ∧ setMaps s.maps order delta = .ok m ∧ make own = .ok d ∧
      distPartials gen.meths.keys d ⟨[], []⟩ = .ok p ∧
      r.scale = some a ∧ r.maps = m ∧ r.kind = .mvar ∧ r.partials = p ∧ r.exprs = s.exprs ∧
      ((∀ F, ¬ Spec.HasFn gen "ppf" F) → r.pfun = s.pfun) := by
  unfold PState.setProb at h
  simp only [bind, Except.bind] at h
  rcases ha : setScale s.scale ps with e | a
  · simp [ha] at h
  rcases hm : setMaps s.maps order delta with e | m
  · simp [ha, hm] at h
  rcases hd : make own with e | d
  · simp [ha, hm, hd] at h
  rcases hp : distPartials gen.meths.keys d ⟨[], []⟩ with e | p
  · simp [ha, hm, hd, hp] at h
  simp only [ha, hm, hd, hp] at h
  obtain ⟨h1, h2, h3, -, h4, h5, h6, h7, h8, h9, -⟩ := finishDist_inv h
  refine ⟨a, m, p, d, rfl, rfl, rfl, hp, h2, h4, h3, h5, h6, fun hF => h8 (.inr ?_)⟩
  rw [(distPartials_get hp).1 _ (by decide) (by decide), if_neg]
  rintro ⟨-, hk⟩
  obtain ⟨F, hF'⟩ := Option.isSome_iff_exists.mp (Dict.get?_isSome.mpr hk)
  exact hF F hF'

/-- No mapping has been given. -/
def Spec.Unmapped : PGiven V → Prop
  | .fn _ _ _ order delta => order = none ∧ delta = none
  | .univ _ _ order delta => order = none ∧ delta = none
  | .mvar _ _ _ order delta => order = none ∧ delta = none
  | _ => True

theorem maps_of_unmapped {s r : PState V} {g : PGiven V} {ps : PSpec} (hs : s.maps = ⟨none, none⟩)
    (hg : Spec.Unmapped g) (h : s.setProb g ps = .ok r) : r.maps = ⟨none, none⟩ := by
  cases g with
  | univ d own order delta =>
    obtain ⟨rfl, rfl⟩ := hg
    obtain ⟨a, m', p, -, hm, -, -, -, h1, -⟩ := univ_inv h
    cases hm; exact h1
  | mvar gen make own order delta =>
    obtain ⟨rfl, rfl⟩ := hg
    obtain ⟨a, m', p, d, -, hm, -, -, -, h1, -⟩ := mvar_inv h
    rw [hs] at hm
    cases hm; exact h1
  | obj attrs v =>
    unfold PState.setProb at h
    simp only [bind, Except.bind] at h
    split at h
    · cases h
    · simp only [pure, Except.pure, Except.ok.injEq] at h; subst h; rfl
  | scalar v =>
    unfold PState.setProb at h
    simp only [bind, Except.bind] at h
    split at h
    · cases h
    · simp only [pure, Except.pure, Except.ok.injEq] at h; subst h; rfl
  | fn attrs f own order delta =>
    obtain ⟨rfl, rfl⟩ := hg
    unfold PState.setProb at h
    simp only [bind, Except.bind, setMaps_none] at h
    split at h
    · cases h
    · simp only [pure, Except.pure, Except.ok.injEq] at h; subst h; rfl

theorem maps_run (l : List (PGiven V × PSpec)) : ∀ s r : PState V, s.maps = ⟨none, none⟩ →
    (∀ o ∈ l, Spec.Unmapped o.1) → s.run l = .ok r → r.maps = ⟨none, none⟩ := by
  induction l with
  | nil => intro s r hs _ h; cases h; exact hs
  | cons o l ih =>
    intro s r hs hl h
    obtain ⟨g, ps⟩ := o
    simp only [PState.run, bind, Except.bind] at h
    cases hq : s.setProb g ps with
    | error e => rw [hq] at h; cases h
    | ok b =>
      rw [hq] at h
      exact ih _ _ (maps_of_unmapped hs (hl (g, ps) (by simp)) hq) (fun o ho => hl o (by simp [ho])) h

/-- **C91 (intended), multivariate distributions.**  The functions by name are those of the
distribution made of the parameters, called with the arguments given. -/
def C91_mvar_claim : Prop :=
  ∀ (l : List (PGiven ℝ × PSpec)) (gen d : DistObj ℝ) (own : Call ℝ) (ps : PSpec) (s : PState ℝ),
    (PState.new 0).run (l ++ [(.mvar gen (fun _ => .ok d) own none none, ps)]) = .ok s →
    ∀ (name : Str) (f : Meth ℝ) (c : Call ℝ), name ∈ Spec.libraryNames → name ∈ gen.meths.keys →
      d.meths.get? name = some f → Spec.Positional c.args → s.item (· - ·) name c = f c

theorem Spec.both_nil (b : Dict Str V) (hb : b.keys.Nodup) : Spec.both [] b = b := by
  suffices ∀ (b a : Dict Str V), (a.keys ++ b.keys).Nodup → Spec.both a b = a ++ b by
    simpa using this b [] (by simpa using hb)
  intro b
  induction b with
  | nil => intro a _; simp [Spec.both]
  | cons kv b ih =>
    intro a h
    have hk : kv.1 ∉ a.keys := by
      intro hm
      exact (List.nodup_append.mp h).2.2 _ hm _ (by simp) rfl
    have : Spec.both a (kv :: b) = Spec.both (a.set kv.1 kv.2) b := rfl
    rw [this, Dict.set_of_notMem hk, ih]
    · simp
    · rw [Dict.keys_append]
      simpa using h

/-- **C91, multivariate distributions**: if no mapping (`order` or `delta`) has ever been
given. -/
theorem C91_mvar_partial (nil : V) (sub : V → V → V) (l : List (PGiven V × PSpec))
    (hl : ∀ o ∈ l, Spec.Unmapped o.1) (gen : DistObj V) (make : Call V → Py (DistObj V)) (own : Call V) (ps : PSpec)
    (s : PState V) (h : (PState.new nil).run (l ++ [(.mvar gen make own none none, ps)]) = .ok s) :
    ∃ d, make own = .ok d ∧ ∀ (name : Str) (f : Meth V) (c : Call V), name ∈ Spec.libraryNames →
      name ∈ gen.meths.keys → d.meths.get? name = some f → Spec.Positional c.args → c.kwds.keys.Nodup →
      s.item sub name c = f c := by
  obtain ⟨m, hm, hs⟩ := run_last _ _ _ _ _ h
  obtain ⟨a, m', p, d, -, hm', hd, hp, -, h1, h2, h3, -⟩ := mvar_inv hs
  have h0 := maps_run l _ m rfl hl hm
  rw [h0] at hm'
  cases hm'
  refine ⟨d, hd, fun name f c hn hg hf hc hk => ?_⟩
  have hget : p.get? name = some ⟨f, ⟨[], []⟩⟩ := by
    rw [(distPartials_get hp).1 _ (by rintro rfl; exact absurd hn (by decide))
      (by rintro rfl; exact absurd hn (by decide)), if_pos ⟨hn, hg⟩, hf]
    rfl
  unfold PState.item
  simp only [h2, h3, hget, h1]
  rw [Fixed.call_plain _ _ _ _ (by simpa using hc)]
  change f ⟨[] ++ c.args, Spec.both [] c.kwds⟩ = f c
  rw [Spec.both_nil _ hk]
  rfl

/-- A multivariate distribution, which has no inverse cumulative function, leaves the
cumulative functions set before. -/
theorem C91_mvar_kept (s r : PState V) (gen : DistObj V) (make : Call V → Py (DistObj V)) (own : Call V)
    (order delta : Option (Dict Str Route)) (ps : PSpec) (h : s.setProb (.mvar gen make own order delta) ps = .ok r)
    (hno : ∀ F, ¬ Spec.HasFn gen "ppf" F) (sub : V → V → V) (b : Bool) (c : Call V) :
    r.cumul sub b c = s.cumul sub b c := by
  obtain ⟨a, m', p, d, -, -, -, -, -, -, -, -, -, h1⟩ := mvar_inv h
  simp only [PState.cumul, h1 hno]

/-- Nor does it change what indexing by the empty string gives. -/
theorem C91_mvar_names (s r : PState V) (gen : DistObj V) (make : Call V → Py (DistObj V)) (own : Call V)
    (order delta : Option (Dict Str Route)) (ps : PSpec) (h : s.setProb (.mvar gen make own order delta) ps = .ok r) :
    r.names = s.names := by
  obtain ⟨a, m', p, d, -, -, -, -, -, -, -, -, h1, -⟩ := mvar_inv h
  simp only [PState.names, h1]

/-- C91: a distribution is evaluated as its function `prob`, or `logp` if the scale is
logarithmic, is called, mappings included; of a multivariate one, with the first argument
alone. -/
theorem C91_evaluated_by_name (s r : PState V) (ps : PSpec) (sub : V → V → V) (stack : PArg V → Py V) (c : Call V) :
    (∀ d own order delta, s.setProb (.univ d own order delta) ps = .ok r → ∃ a, r.scale = some a ∧
      r.eval sub stack c = r.item sub (if Spec.Logarithmic a then "logp".toList else "prob".toList) ⟨c.args, []⟩) ∧
    (∀ gen make own order delta, s.setProb (.mvar gen make own order delta) ps = .ok r → ∃ a, r.scale = some a ∧
      ∀ x rest v, c.args = x :: rest → stack x = .ok v →
        r.eval sub stack c =
          r.item sub (if Spec.Logarithmic a then "logp".toList else "prob".toList) ⟨[.val v], []⟩) := by
  constructor
  · intro d own order delta h
    obtain ⟨a, m', p, -, -, -, -, h1, -, h3, -⟩ := univ_inv h
    refine ⟨a, h1, ?_⟩
    have hk : (if (r.scale.map PScale.isLog).getD false then "logp".toList else "prob".toList) =
        if Spec.Logarithmic a then "logp".toList else "prob".toList := by
      rw [h1]; exact denKey_eq a
    unfold PState.eval PState.item
    simp only [h3]
    rw [hk]
  · intro gen make own order delta h
    obtain ⟨a, m', p, d, -, -, -, -, h1, -, h3, -⟩ := mvar_inv h
    refine ⟨a, h1, fun x rest v hc hv => ?_⟩
    have hk : (if (r.scale.map PScale.isLog).getD false then "logp".toList else "prob".toList) =
        if Spec.Logarithmic a then "logp".toList else "prob".toList := by
      rw [h1]; exact denKey_eq a
    unfold PState.eval PState.item
    simp only [h3]
    rw [hk, hc]
    split <;> rename_i hh <;> simp_all [bind, Except.bind]

/-! ### A distribution, and the negations -/

/-- A continuous distribution of one parameter `loc` besides the value: density, its
logarithm, cumulative functions and a draw. -/
noncomputable def expon : DistObj ℝ :=
  let by_ (g : ℝ → ℝ → ℝ) : Meth ℝ := fun c => match c.args with
    | .val x :: .val loc :: _ => .ok (g loc x)
    | [.val x] => .ok (g ((c.kwds.get? "loc".toList).getD 0) x)
    | _ => .error .type
  ⟨[("pdf".toList, by_ fun loc x => if loc ≤ x then Real.exp (loc - x) else 0),
    ("logpdf".toList, by_ fun loc x => loc - x),
    ("cdf".toList, by_ fun loc x => 1 - Real.exp (loc - x)),
    ("ppf".toList, by_ fun loc q => loc - Real.log (1 - q)),
    ("rvs".toList, fun c => .ok ((c.kwds.get? "loc".toList).getD 0))]⟩

theorem expon_density : ∃ f, Spec.HasFn expon "pdf" f ∧ Spec.DensityOf expon false f := ⟨_, rfl, .pdf _ rfl⟩

theorem expon_logp : ∃ f, Spec.DensityOf expon true f := ⟨_, .logpdf _ _ rfl rfl⟩

theorem expon_pmf (f : Meth ℝ) : ¬ Spec.HasFn expon "pmf" f := by
  intro h
  have : Dict.get? expon.meths "pmf".toList = none := by
    rw [Dict.get?_eq_none]; simp [expon, Dict.keys]
  rw [Spec.HasFn, this] at h
  cases h

theorem expon_set (l : List (PGiven ℝ × PSpec)) (m : PState ℝ) (hm : (PState.new 0).run l = .ok m)
    (hl : ∀ o, l.getLast? = some o → Spec.Bare o.1) (own : Call ℝ) (ps : PSpec) (a : PScale)
    (ha : setScale m.scale ps = .ok a) :
    ∃ r, (PState.new 0).run (l ++ [(.univ expon own none none, ps)]) = .ok r := by
  obtain ⟨f, -, hf⟩ := expon_density
  obtain ⟨g, hg⟩ := expon_logp
  exact C91_accepted 0 l m hm hl expon own ps a ha f g hf hg fun u hu => absurd hu (expon_pmf u)

theorem setScale_first : setScale none .none = .ok (.lin 1) := by
  simp [setScale, PSpec.truthy, evalPscale]

theorem expon_first (own : Call ℝ) :
    ∃ r, (PState.new 0).run [(.univ expon own none none, .none)] = .ok r :=
  expon_set [] _ rfl (by simp) own .none _ setScale_first

/-- With `loc=2` the density at 3. -/
example : ∃ s, (PState.new 0).run [(.univ expon ⟨[], [("loc".toList, 2)]⟩ none none, .none)] = .ok s ∧
    s.eval (· - ·) (fun _ => .error .value) ⟨[.val 3], []⟩ = .ok (Real.exp (-1)) := by
  obtain ⟨s, hs⟩ := expon_first ⟨[], [("loc".toList, 2)]⟩
  obtain ⟨a, ha, h⟩ := C91_evaluates 0 (· - ·) (fun _ => .error .value) [] expon _ _ s hs
  refine ⟨s, hs, ?_⟩
  have hlin : Spec.Logarithmic a = false := by
    obtain ⟨m, hm, hs⟩ := run_last _ [] _ _ _ hs
    cases hm
    obtain ⟨a', m', p, h0, -, -, -, h1, -⟩ := univ_inv hs
    have : a' = .lin 1 := by
      have := h0.symm.trans setScale_first
      exact Except.ok.inj this
    rw [ha] at h1
    cases h1
    rw [this]; rfl
  rw [h _ (by rw [hlin]; exact .pdf _ rfl)]
  simp [Dict.get?]
  norm_num

theorem C91_positional_claim_fails : ¬ C91_positional_claim := by
  intro h
  obtain ⟨s, hs⟩ := expon_first ⟨[.val 1], []⟩
  obtain ⟨a, ha, h'⟩ := C91_positional 0 (· - ·) (fun _ => .error .value) [] expon [1] [] .none s hs
  have hlin : Spec.Logarithmic a = false := by
    obtain ⟨m, hm, hs⟩ := run_last _ [] _ _ _ hs
    cases hm
    obtain ⟨a', m', p, h0, -, -, -, h1, -⟩ := univ_inv hs
    have : a' = .lin 1 := by
      have := h0.symm.trans setScale_first
      exact Except.ok.inj this
    rw [ha] at h1
    cases h1
    rw [this]; rfl
  have h1 := h expon [1] _ s (.pdf _ rfl) hs 0
  rw [h' _ (by rw [hlin]; exact .pdf _ rfl)] at h1
  norm_num [Real.exp_ne_zero] at h1

theorem C91_own_claim_fails : ¬ C91_own_claim := by
  intro h
  obtain ⟨s, hs⟩ := expon_first ⟨[], []⟩
  obtain ⟨a, ha⟩ : ∃ a, s.scale = some a := by
    obtain ⟨m, hm, hs⟩ := run_last _ [] _ _ _ hs
    obtain ⟨a', m', p, h0, -, -, -, h1, -⟩ := univ_inv hs
    exact ⟨a', h1⟩
  have hst : setScale (some a) .none = .ok a := by
    obtain ⟨m, hm, hs⟩ := run_last _ [] _ _ _ hs
    obtain ⟨a', m', p, h0, -, -, -, h1, -⟩ := univ_inv hs
    rw [ha] at h1
    cases h1
    exact setScale_keeps _ (setScale_stable _ _ _ h0) _ (by simp [Spec.Stated])
  obtain ⟨r, hr⟩ : ∃ r, s.setProb (.scalar (1 / 2)) .none = .ok r := by
    simp only [PState.setProb, ha, hst, bind, Except.bind]
    exact ⟨_, rfl⟩
  have hrun : (PState.new 0).run ([(.univ expon ⟨[], []⟩ none none, .none)] ++ [(.scalar (1 / 2), .none)]) = .ok r := by
    simp only [PState.run, bind, Except.bind] at hs
    simp only [List.cons_append, List.nil_append, PState.run, bind, Except.bind]
    cases hq : (PState.new (0 : ℝ)).setProb (.univ expon ⟨[], []⟩ none none) .none with
    | error e => rw [hq] at hs; cases hs
    | ok b => rw [hq] at hs; cases hs; simp only [hr]
  obtain ⟨e, he⟩ := h _ (.scalar (1 / 2)) .none r (.scalar _) hrun false ⟨[.val 0], []⟩
  rw [(C91_kept s r _ _ (.scalar _) hr (· - ·) _).1] at he
  rw [((C91_cumulative 0 (· - ·) [] expon [] .none s hs ⟨[.val 0], []⟩ (by simp [Spec.Positional])).1 _ _ rfl
    rfl).1] at he
  simp at he

theorem C91_names_claim_fails : ¬ C91_names_claim := by
  intro h
  obtain ⟨s, hs⟩ := expon_first ⟨[], []⟩
  obtain ⟨l, hl, h'⟩ := h expon [] s hs
  obtain ⟨m, hm, hs⟩ := run_last _ [] _ _ _ hs
  rw [C91_names m s expon _ _ _ _ hs] at hl
  cases hl
  have := h' "pdf".toList (by decide) (by simp [expon, Dict.keys])
  simp at this

/-- A function with an order, then a multivariate distribution. -/
theorem C91_mvar_claim_fails : ¬ C91_mvar_claim := by
  intro h
  have hsc : setScale (some (.lin 1)) .none = .ok (.lin 1) :=
    setScale_keeps _ (setScale_stable _ _ _ setScale_first) _ (by simp [Spec.Stated])
  obtain ⟨p, hp⟩ := distPartials_ok expon.meths.keys expon ⟨[], []⟩
    (fun m _ hm => Option.isSome_iff_exists.mp (Dict.get?_isSome.mpr hm))
    (fun _ => by simp [expon, Dict.keys]) (fun h => by simp [expon, Dict.keys] at h)
  let ord : Dict Str Route := [("x".toList, .pos 0)]
  have hmaps : setMaps ⟨none, none⟩ (some ord) none = .ok ⟨some ord, none⟩ := by
    simp [setMaps, setOrder, checkMapping, ord, Route.ints, Route.isOther, Dict.vals, bind, Except.bind]
  let f0 : Meth ℝ := fun _ => .ok 1
  have h1 : (PState.new (0 : ℝ)).setProb (.fn [] f0 ⟨[], []⟩ (some ord) none) .none =
      .ok ⟨some (.lin 1), .fn ⟨f0, ⟨[], []⟩⟩, [], ⟨some ord, none⟩, [], some [], none, none⟩ := by
    simp only [PState.setProb, PState.new, setScale_first, bind, Except.bind, hmaps]
    rfl
  have hden : ∃ f, p.get? (denKey (some (.lin 1))) = some f := by
    rcases (distPartials_get hp).2 with ⟨F, G, -, -, -, -, c1, c2⟩ | ⟨F, G, -, -, -, -, -, c1, c2⟩ | ⟨c1, c2⟩
    · exact ⟨_, c1⟩
    · exact ⟨_, c1⟩
    · exfalso
      unfold distPartials at hp
      rcases hm : fixMethods expon.meths.keys expon ⟨[], []⟩ with e | m
      · simp [hm, bind, Except.bind] at hp
      · have hmg := fixMethods_get hm
        have e1 := hmg "pdf".toList
        have e2 := hmg "logpdf".toList
        rw [if_pos ⟨by decide, by simp [expon, Dict.keys]⟩] at e1 e2
        obtain ⟨f, -, hf⟩ := expon_density
        obtain ⟨F, hF⟩ : ∃ F, Dict.get? expon.meths "pdf".toList = some F := ⟨_, rfl⟩
        obtain ⟨G, hG⟩ : ∃ G, Dict.get? expon.meths "logpdf".toList = some G := ⟨_, rfl⟩
        rw [hF] at e1
        rw [hG] at e2
        simp only [hm, bind, Except.bind, commonNames, e1, e2, Option.map_some, Except.ok.injEq] at hp
        rw [← hp, Dict.get?_append] at c1
        simp [Dict.get?] at c1
  obtain ⟨r, hr⟩ : ∃ r, PState.setProb (V := ℝ)
      ⟨some (.lin 1), .fn ⟨f0, ⟨[], []⟩⟩, [], ⟨some ord, none⟩, [], some [], none, none⟩
      (.mvar expon (fun _ => .ok expon) ⟨[], []⟩ none none) .none = .ok r := by
    simp only [PState.setProb, hsc, bind, Except.bind, setMaps, hp]
    exact finishDist_ok hden
  have hrun : (PState.new 0).run ([(.fn [] f0 ⟨[], []⟩ (some ord) none, .none)] ++
      [(.mvar expon (fun _ => .ok expon) ⟨[], []⟩ none none, .none)]) = .ok r := by
    simp only [List.cons_append, List.nil_append, PState.run, h1, bind, Except.bind, hr]
  obtain ⟨a, m', q, d, -, hm', hd, hq, -, e1, e2, e3, -⟩ := mvar_inv hr
  cases hd
  cases hm'
  have hget : q.get? "rvs".toList = some ⟨fun c => .ok ((c.kwds.get? "loc".toList).getD 0), ⟨[], []⟩⟩ := by
    rw [(distPartials_get hq).1 _ (by decide) (by decide), if_pos ⟨by decide, by simp [expon, Dict.keys]⟩]
    rfl
  have := h _ expon expon _ _ r hrun "rvs".toList _ ⟨[], []⟩ (by decide) (by simp [expon, Dict.keys]) rfl
    (by simp [Spec.Positional])
  unfold PState.item at this
  simp only [e2, e3, hget, e1] at this
  simp [Fixed.call, exprPartial, exprCall, unpackDict, truthy, ord, orderLoop, Dict.pop, Dict.get?, bind,
    Except.bind] at this

end Probayes
