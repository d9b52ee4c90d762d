/-
C78: who proposes and steps in a process whose proposals, transitions and deltas are set
on it, or on its leafs or roots.
-/
import Verif.Model.SDSet

namespace Probayes

/-- The argument names the leafs or roots, or is a random field of the same variables. -/
inductive Spec.Stands (d : SDInfo) : SetArg → ℕ → Prop
  | leafs : Spec.Stands d (.str "leafs".toList) d.leafs
  | roots (r : ℕ) (h : d.roots = some r) : Spec.Stands d (.str "roots".toList) r
  | leafsObj (n : ℕ) (h : d.keys n = d.keys d.leafs) : Spec.Stands d (.val (.rf n)) n
  | rootsObj (n r : ℕ) (h : d.roots = some r) (hk : d.keys n = d.keys r) :
      Spec.Stands d (.val (.rf n)) n

/-- The argument is a value of its own: none of those, no string and not None. -/
def Spec.OwnValue (d : SDInfo) (a : SetArg) (v : SetVal) : Prop :=
  a = .val v ∧ ∀ n, ¬ Spec.Stands d a n

/-- A transition is set. -/
def Spec.Moves (k : Setting) : Prop := k = .tran ∨ k = .tfun

theorem leafsRoots_stands {d : SDInfo} {a : SetArg} {n : ℕ} (h : Spec.Stands d a n) :
    d.leafsRoots a = .ok (some (.rf n)) := by
  cases h with
  | leafs => simp [SDInfo.leafsRoots, SDInfo.sub]
  | roots _ h => simp [SDInfo.leafsRoots, SDInfo.sub, h]
  | leafsObj _ h => simp [SDInfo.leafsRoots, h]
  | rootsObj _ r h hk => simp [SDInfo.leafsRoots, h, hk]

theorem stands_of_leafsRoots {d : SDInfo} {a : SetArg} {n : ℕ}
    (h : d.leafsRoots a = .ok (some (.rf n))) : Spec.Stands d a n := by
  unfold SDInfo.leafsRoots at h
  split at h
  · simp at h
  · rename_i s
    unfold SDInfo.sub at h
    by_cases h1 : s = "leafs".toList
    · rw [if_pos h1] at h
      simp at h
      rw [← h, h1]
      exact .leafs
    · rw [if_neg h1] at h
      by_cases h2 : s = "roots".toList
      · rw [if_pos h2] at h
        rcases hr : d.roots with _ | r
        · simp [hr] at h
        · simp [hr] at h
          rw [← h, h2]
          exact .roots r hr
      · rw [if_neg h2] at h
        simp at h
  · rename_i m
    split at h
    · rename_i hc
      simp at h
      subst h
      rcases hc with hc | ⟨r, hr, hk⟩
      · exact .leafsObj _ hc
      · exact .rootsObj _ r hr hk
    · simp at h
  · simp at h

theorem leafsRoots_own {d : SDInfo} {a : SetArg} {v : SetVal} (h : Spec.OwnValue d a v) :
    d.leafsRoots a = .ok none := by
  obtain ⟨rfl, hn⟩ := h
  cases v with
  | rf n =>
      rcases hl : d.leafsRoots (.val (.rf n)) with e | o
      · simp [SDInfo.leafsRoots] at hl
      · cases o with
        | none => rfl
        | some o =>
            cases o with
            | rf m => exact absurd (stands_of_leafsRoots hl) (hn m)
            | self =>
                simp only [SDInfo.leafsRoots] at hl
                split at hl <;> simp at hl
            | dict =>
                simp only [SDInfo.leafsRoots] at hl
                split at hl <;> simp at hl
  | _ => rfl

theorem own_stands {d : SDInfo} {a : SetArg} {n : ℕ} {v : SetVal} (h : Spec.Stands d a n)
    (ho : Spec.OwnValue d a v) : False := ho.2 n h

/-- Every argument is None, stands for a subfield, is a value, or is another string. -/
theorem arg_cases (d : SDInfo) (a : SetArg) : a = .none ∨ (∃ n, Spec.Stands d a n) ∨
    (∃ v, Spec.OwnValue d a v) ∨ ∃ x, a = .str x ∧ d.sub x = none := by
  by_cases h : ∃ n, Spec.Stands d a n
  · exact .inr (.inl h)
  · cases a with
    | none => exact .inl rfl
    | val v => exact .inr (.inr (.inl ⟨v, rfl, fun n hn => h ⟨n, hn⟩⟩))
    | str x =>
        refine .inr (.inr (.inr ⟨x, rfl, ?_⟩))
        rcases hx : d.sub x with _ | n
        · rfl
        · exact absurd ⟨n, stands_of_leafsRoots (by simp [SDInfo.leafsRoots, hx])⟩ h

theorem hold_held (s : FieldSt) (v : Option SetVal) (k k' : Setting) :
    (s.hold v k).held k' = if k' = k then v else s.held k' := by
  cases k <;> cases k' <;> simp [FieldSt.hold, FieldSt.held]

theorem set_held (n : ℕ) (r : Bool) (o t : Finset Str) (s : FieldSt) (v : Option SetVal) (k k' : Setting) :
    (s.set n r o t v k).1.held k' = if k' = k then v else s.held k' := by
  cases k <;> cases v <;> cases k' <;>
    simp [FieldSt.set, FieldSt.setProp, FieldSt.setTran, FieldSt.setTfun, FieldSt.setDelta,
      FieldSt.held]

theorem set_stands {d : SDInfo} (s : SDSt) {a : SetArg} {n : ℕ} (h : Spec.Stands d a n) (k : Setting) :
    s.set d a k = ({ s with me := s.me.hold ((s.rfs n).held k) k, propObj := some (.rf n), dtype := n },
      none) := by
  simp [SDSt.set, leafsRoots_stands h]

theorem set_own {d : SDInfo} (s : SDSt) {a : SetArg} {v : SetVal} (h : Spec.OwnValue d a v) (k : Setting) :
    s.set d a k = ({ s with me := (s.me.set d.own.card d.rooted d.own (d.keys s.dtype) (some v) k).1 },
      (s.me.set d.own.card d.rooted d.own (d.keys s.dtype) (some v) k).2) := by
  have : a.given = some v := by rw [h.1]; rfl
  simp [SDSt.set, leafsRoots_own h, this]

theorem set_absent {d : SDInfo} (s : SDSt) {x : Str} (h : d.sub x = none) (k : Setting) :
    s.set d (.str x) k = (s, some .assertion) := by
  simp [SDSt.set, SDInfo.leafsRoots, h]

/-! ### Leafs and roots -/

/-- C78: what stands for a subfield is accepted; the setting of that field is taken over,
the others stay, and that field proposes and steps. -/
theorem C78_subfield {d : SDInfo} (s : SDSt) {a : SetArg} {n : ℕ} (h : Spec.Stands d a n) (k : Setting) :
    ∃ s', s.apply d (.me a k) = (s', none) ∧ s'.rfs = s.rfs ∧
      (∀ k', s'.me.held k' = if k' = k then (s.rfs n).held k else s.me.held k') ∧
      s'.proposer d = .ok (.rf n) ∧ s'.stepper = .ok (.rf n) :=
  ⟨_, set_stands s h k, rfl, fun k' => hold_held _ _ k k', rfl, rfl⟩

/-- C78: names of subfields there are not are refused, and nothing changes. -/
theorem C78_absent (d : SDInfo) (s : SDSt) (x : Str) (k : Setting)
    (h : ∀ n, ¬ Spec.Stands d (.str x) n) : s.apply d (.me (.str x) k) = (s, some .assertion) := by
  have : d.sub x = none := by
    rcases hx : d.sub x with _ | n
    · rfl
    · exact absurd (stands_of_leafsRoots (by simp [SDInfo.leafsRoots, hx])) (h n)
  exact set_absent s this k

/-- Operations that neither set a transition on the dependence nor stand for another field
than `n`, nor are None. -/
def Spec.Keeps (d : SDInfo) (n : ℕ) : SDOp → Prop
  | .me a k => ¬ Spec.Moves k ∧ a ≠ .none ∧ ∀ m, Spec.Stands d a m → m = n
  | .rf _ _ _ => True

theorem apply_keeps {d : SDInfo} {n : ℕ} (s : SDSt) (hs : s.propObj = some (.rf n)) (op : SDOp)
    (h : Spec.Keeps d n op) : (s.apply d op).1.propObj = some (.rf n) ∧
      ∀ k, Spec.Moves k → (s.apply d op).1.me.held k = s.me.held k := by
  cases op with
  | rf m v k => exact ⟨hs, fun _ _ => rfl⟩
  | me a k =>
      obtain ⟨hk, hne, hst⟩ := h
      have hdiff : ∀ k', Spec.Moves k' → k' ≠ k := fun k' h1 h2 => hk (h2 ▸ h1)
      simp only [SDSt.apply]
      rcases arg_cases d a with rfl | ⟨m, hm⟩ | ⟨v, hv⟩ | ⟨x, rfl, hx⟩
      · exact absurd rfl hne
      · rw [set_stands s hm k, hst m hm]
        exact ⟨rfl, fun k' hk' => by rw [hold_held, if_neg (hdiff k' hk')]⟩
      · rw [set_own s hv k]
        exact ⟨hs, fun k' hk' => by
          show (FieldSt.set _ _ _ _ _ _ _).1.held k' = _
          rw [set_held, if_neg (hdiff k' hk')]⟩
      · rw [set_absent s hx k]
        exact ⟨hs, fun _ _ => rfl⟩

theorem run_keeps {d : SDInfo} {n : ℕ} (ops : List SDOp) : ∀ (s : SDSt), s.propObj = some (.rf n) →
    (∀ op ∈ ops, Spec.Keeps d n op) → (s.run d ops).propObj = some (.rf n) ∧
      ∀ k, Spec.Moves k → (s.run d ops).me.held k = s.me.held k := by
  induction ops with
  | nil => exact fun s hs _ => ⟨hs, fun _ _ => rfl⟩
  | cons op ops ih =>
      intro s hs h
      obtain ⟨h1, h2⟩ := apply_keeps s hs op (h op (by simp))
      obtain ⟨h3, h4⟩ := ih _ h1 (fun o ho => h o (by simp [ho]))
      exact ⟨h3, fun k hk => by rw [← h2 k hk, ← h4 k hk]; rfl⟩

theorem run_append_sd (d : SDInfo) (s : SDSt) (l l' : List SDOp) :
    s.run d (l ++ l') = (s.run d l).run d l' := by
  simp [SDSt.run]

theorem run_cons_sd (d : SDInfo) (s : SDSt) (op : SDOp) (l : List SDOp) :
    s.run d (op :: l) = ((s.apply d op).1).run d l := rfl

/-- C78: once a transition has been set by a subfield that has one, sampling steps with
that field, whatever was set before and whatever is set afterwards on the fields or, but
for transitions, None and other subfields, on the dependence. -/
theorem C78_steps_partial (d : SDInfo) (s : SDSt) (l l' : List SDOp) (a : SetArg) (n : ℕ)
    (h : Spec.Stands d a n) (k : Setting) (hk : Spec.Moves k) (hset : ((s.run d l).rfs n).held k ≠ none)
    (hl' : ∀ op ∈ l', Spec.Keeps d n op) :
    (s.run d (l ++ .me a k :: l')).sample d = .ok (.step (.rf n)) ∧
      (s.run d (l ++ .me a k :: l')).me.held k = ((s.run d l).rfs n).held k := by
  rw [run_append_sd, run_cons_sd]
  generalize s.run d l = t at *
  have h1 : (t.apply d (.me a k)).1 =
      { t with me := t.me.hold ((t.rfs n).held k) k, propObj := some (.rf n), dtype := n } :=
    congrArg Prod.fst (set_stands t h k)
  rw [h1]
  obtain ⟨h2, h3⟩ := run_keeps (d := d) l'
    { t with me := t.me.hold ((t.rfs n).held k) k, propObj := some (.rf n), dtype := n } rfl hl'
  have h4 := h3 k hk
  simp only [hold_held, if_true] at h4
  refine ⟨?_, h4⟩
  generalize SDSt.run d _ l' = u at *
  have h5 : (u.me.tran.isNone && u.me.tfun.isNone) = false := by
    rcases hk with rfl | rfl
    · have : u.me.tran = (t.rfs n).tran := h4
      simp only [FieldSt.held] at hset
      rw [this]
      rcases hh : (t.rfs n).tran with _ | v
      · exact absurd hh hset
      · simp
    · have : u.me.tfun = (t.rfs n).tfun := h4
      simp only [FieldSt.held] at hset
      rw [this]
      rcases hh : (t.rfs n).tfun with _ | v
      · exact absurd hh hset
      · simp
  simp [SDSt.sample, h5, SDSt.stepper, h2, bind, Except.bind, pure, Except.pure]

/-- The claim without exceptions for other settings: sampling steps with the field whose
transition was set last. -/
def C78_steps_claim : Prop :=
  ∀ (d : SDInfo) (s : SDSt) (a : SetArg) (n : ℕ), Spec.Stands d a n → (s.rfs n).tran ≠ none →
    ∀ op, (∀ a' k, op = .me a' k → ¬ Spec.Moves k) → (s.apply d op).2 = none →
    (s.run d [.me a .tran, op]).sample d = .ok (.step (.rf n))

/-- A dependence of two leafs on two roots: fields 0 and 1. -/
def pairOnPair : SDInfo :=
  ⟨fun n => if n = 0 then {['x'], ['y']} else {['a'], ['b']}, {['x'], ['y'], ['a'], ['b']}, 0, some 1,
    false, false⟩

/-- A process of two variables: field 0. -/
def justPair : SDInfo := ⟨fun _ => {['x'], ['y']}, {['x'], ['y']}, 0, none, false, false⟩

/-- The fields have transitions. -/
def withTran : ℕ → FieldSt := fun n => ⟨none, some (.fn n), none, none⟩

/-- C78 refuted: taking the deltas of the leafs makes the leafs step instead of the
roots. -/
theorem C78_steps_claim_fails : ¬ C78_steps_claim := by
  intro h
  have := h pairOnPair (SDSt.new pairOnPair withTran) (.str "roots".toList) 1 (.roots 1 rfl)
    (by simp [SDSt.new, withTran]) (.me (.str "leafs".toList) .delta)
    (by rintro _ _ h; cases h; simp [Spec.Moves]) (by
      obtain ⟨s', h1, -⟩ := C78_subfield (SDSt.new pairOnPair withTran) (.leafs (d := pairOnPair)) .delta
      rw [h1])
  simp [SDSt.run, SDSt.apply, SDSt.set, SDInfo.leafsRoots, SDInfo.sub, pairOnPair, SDSt.new, SDSt.sample,
    withTran, FieldSt.hold, FieldSt.held, SDSt.stepper, bind, Except.bind, pure, Except.pure] at this

/-- The claim: the transition shown is that of the field that steps. -/
def C78_same_claim : Prop :=
  ∀ (d : SDInfo) (s : SDSt) (a : SetArg) (n : ℕ), Spec.Stands d a n →
    ∀ op, (∀ a' k, op ≠ .me a' k) → ∀ s', s' = s.run d [.me a .tran, op] → s'.me.tran = (s'.rfs n).tran

/-- C78: it is until the transition of the field is set. -/
theorem C78_same_partial (d : SDInfo) (s : SDSt) (a : SetArg) (n : ℕ) (h : Spec.Stands d a n)
    (k : Setting) (ops : List SDOp)
    (hops : ∀ op ∈ ops, ∃ m v k', op = .rf m v k' ∧ (m ≠ n ∨ k' ≠ k)) :
    (s.run d (.me a k :: ops)).me.held k = ((s.run d (.me a k :: ops)).rfs n).held k := by
  rw [run_cons_sd]
  have h1 : (s.apply d (.me a k)).1 =
      { s with me := s.me.hold ((s.rfs n).held k) k, propObj := some (.rf n), dtype := n } :=
    congrArg Prod.fst (set_stands s h k)
  have h0 : (s.apply d (.me a k)).1.me.held k = ((s.apply d (.me a k)).1.rfs n).held k := by
    rw [h1]
    simp [hold_held]
  clear h1
  generalize (s.apply d (.me a k)).1 = t at *
  induction ops generalizing t with
  | nil => exact h0
  | cons op ops ih =>
      obtain ⟨m, v, k', rfl, hmk⟩ := hops op (by simp)
      refine ih (fun o ho => hops o (by simp [ho])) _ ?_
      have hme : (t.apply d (.rf m v k')).1.me = t.me := rfl
      rw [hme, h0]
      by_cases hm : m = n
      · subst hm
        have hk : k ≠ k' := by
          rcases hmk with h | h
          · exact absurd rfl h
          · exact fun hh => h hh.symm
        simp [SDSt.apply, set_held, hk]
      · simp [SDSt.apply, Function.update_of_ne (fun hh => hm hh.symm)]

/-- C78 refuted: a transition set on the field afterwards is used, but not shown. -/
theorem C78_same_claim_fails : ¬ C78_same_claim := by
  intro h
  have := h justPair (SDSt.new justPair withTran) (.str "leafs".toList) 0 .leafs
    (.rf 0 (some (.fn 5)) .tran) (by simp) _ rfl
  simp [SDSt.run, SDSt.apply, SDSt.set, SDInfo.leafsRoots, SDInfo.sub, justPair, SDSt.new, withTran,
    FieldSt.hold, FieldSt.held, FieldSt.set, FieldSt.setTran] at this

/-! ### Functions of its own -/

/-- Operations that set functions or numbers on the dependence, or anything on fields. -/
def Spec.OwnValueOp (d : SDInfo) : SDOp → Prop
  | .me a _ => ∃ v, Spec.OwnValue d a v
  | .rf _ _ _ => True

/-- The value last set on the dependence, by values of its own. -/
def Spec.lastOwn (k : Setting) (v : Option SetVal) : List SDOp → Option SetVal
  | [] => v
  | .me (.val w) k' :: ops => Spec.lastOwn k (if k = k' then some w else v) ops
  | _ :: ops => Spec.lastOwn k v ops

theorem run_own {d : SDInfo} (ops : List SDOp) : ∀ (s : SDSt), (∀ op ∈ ops, Spec.OwnValueOp d op) →
    (s.run d ops).propObj = s.propObj ∧
      ∀ k, (s.run d ops).me.held k = Spec.lastOwn k (s.me.held k) ops := by
  induction ops with
  | nil => exact fun s _ => ⟨rfl, fun _ => rfl⟩
  | cons op ops ih =>
      intro s h
      obtain ⟨h1, h2⟩ := ih (s.apply d op).1 (fun o ho => h o (by simp [ho]))
      have hop := h op (by simp)
      rw [run_cons_sd]
      cases op with
      | rf m v k => exact ⟨h1, h2⟩
      | me a k =>
          obtain ⟨v, hv⟩ := hop
          have he : (s.apply d (.me a k)) = _ := set_own s hv k
          refine ⟨by rw [h1, he], fun k' => ?_⟩
          rw [h2 k', he]
          show Spec.lastOwn k' ((FieldSt.set _ _ _ _ _ _ _).1.held k') ops = _
          rw [set_held, hv.1]
          rfl

/-- C78: with values of its own only, the last of each setting is held, and the dependence
steps if it has a transition, otherwise proposes if it has a proposal, otherwise only
evaluates its probability. -/
theorem C78_own_partial (d : SDInfo) (rfs : ℕ → FieldSt) (ops : List SDOp) (hu : d.unitTran = false)
    (hops : ∀ op ∈ ops, Spec.OwnValueOp d op) (s : SDSt) (hs : s = (SDSt.new d rfs).run d ops) :
    (∀ k, s.me.held k = Spec.lastOwn k none ops) ∧
    s.sample d = .ok (
      if Spec.lastOwn .tran none ops ≠ none ∨ Spec.lastOwn .tfun none ops ≠ none then .step .self
      else if Spec.lastOwn .prop none ops ≠ none then .propose .self else .call) := by
  obtain ⟨h1, h2⟩ := run_own ops (SDSt.new d rfs) hops
  have h3 : ∀ k, s.me.held k = Spec.lastOwn k none ops := fun k => by
    rw [hs, h2 k]
    cases k <;> rfl
  refine ⟨h3, ?_⟩
  have hp : s.propObj = none := by rw [hs, h1]; rfl
  rw [← h3, ← h3, ← h3]
  simp only [SDSt.sample, hu, FieldSt.held, SDSt.proposer, SDSt.stepper, hp]
  have hc : ∀ o : Option SetVal, o = none ∨ ∃ v, o = some v := fun o => by cases o <;> simp
  rcases hc s.me.tran with h4 | ⟨t, h4⟩ <;> rcases hc s.me.tfun with h5 | ⟨f, h5⟩ <;>
    rcases hc s.me.prop with h6 | ⟨p, h6⟩ <;>
    simp [h4, h5, h6, bind, Except.bind, pure, Except.pure]

/-- The claim: sampling steps by the transition last set, if it was accepted. -/
def C78_last_claim : Prop :=
  ∀ (d : SDInfo) (s : SDSt) (v : SetVal) (a : SetArg), Spec.OwnValue d a v →
    (s.apply d (.me a .tran)).2 = none → (s.apply d (.me a .tran)).1.sample d = .ok (.step .self)

/-- C78: once a subfield has been set, no function set on the dependence is ever used: it
neither proposes nor steps itself again. -/
theorem C78_never_self (d : SDInfo) (s : SDSt) (l l' : List SDOp) (a : SetArg) (n : ℕ)
    (h : Spec.Stands d a n) (k : Setting) (t : SDSt) (ht : t = s.run d (l ++ .me a k :: l')) :
    t.stepper ≠ .ok .self ∧ t.proposer d ≠ .ok .self := by
  have key : ∀ (ops : List SDOp) (u : SDSt), (u.propObj ≠ none ∧ u.propObj ≠ some .self) →
      ((u.run d ops).propObj ≠ none ∧ (u.run d ops).propObj ≠ some .self) := by
    intro ops
    induction ops with
    | nil => exact fun _ h => h
    | cons op ops ih =>
        intro u hu
        refine ih _ ?_
        cases op with
        | rf _ _ _ => exact hu
        | me b k' =>
            simp only [SDSt.apply]
            rcases arg_cases d b with rfl | ⟨m, hm⟩ | ⟨v, hv⟩ | ⟨x, rfl, hx⟩
            · exact ⟨by simp [SDSt.set, SDInfo.leafsRoots], by simp [SDSt.set, SDInfo.leafsRoots]⟩
            · rw [set_stands u hm k']
              simp
            · rw [set_own u hv k']
              exact hu
            · rw [set_absent u hx k']
              exact hu
  have h1 : ((s.run d l).apply d (.me a k)).1.propObj = some (.rf n) :=
    congrArg (fun r => r.1.propObj) (set_stands (s.run d l) h k)
  have h2 := key l' ((s.run d l).apply d (.me a k)).1 (by simp [h1])
  rw [ht, run_append_sd, run_cons_sd]
  generalize SDSt.run d _ l' = u at *
  rcases hu : u.propObj with _ | o
  · exact absurd hu h2.1
  · cases o with
    | self => exact absurd hu h2.2
    | rf m => simp [SDSt.stepper, SDSt.proposer, hu]
    | dict => simp [SDSt.stepper, SDSt.proposer, hu]

/-- C78 refuted. -/
theorem C78_last_claim_fails : ¬ C78_last_claim := by
  intro h
  have ho : Spec.OwnValue justPair (.val (.fn 5)) (.fn 5) := ⟨rfl, fun n hn => nomatch hn⟩
  have := h justPair ((SDSt.new justPair withTran).run justPair [.me (.str "leafs".toList) .tran]) (.fn 5)
    _ ho (by
      simp [SDSt.run, SDSt.apply, SDSt.set, SDInfo.leafsRoots, SDInfo.sub, justPair, SDSt.new, withTran,
        FieldSt.hold, FieldSt.held, FieldSt.set, FieldSt.setTran, SDInfo.rooted, SetArg.given])
  have hn := (C78_never_self justPair (SDSt.new justPair withTran) [] [.me (.val (.fn 5)) .tran]
    (.str "leafs".toList) 0 .leafs .tran _ rfl).1
  have hs : ∀ t : SDSt, t.sample justPair = .ok (.step .self) → t.stepper = .ok .self := by
    intro t ht
    rcases hst : t.stepper with e | o
    · simp only [SDSt.sample, hst, bind, Except.bind, pure, Except.pure] at ht
      split at ht
      · split at ht
        · simp at ht
        · split at ht <;> simp at ht
      · simp at ht
    · simp only [SDSt.sample, hst, bind, Except.bind, pure, Except.pure] at ht
      split at ht
      · split at ht
        · simp at ht
        · split at ht <;> simp at ht
      · simp at ht
        rw [ht]
  exact hn (hs _ this)

/-- C78: processes with roots or stems accept no transition of their own... -/
theorem C78_rooted_refused (d : SDInfo) (s : SDSt) (a : SetArg) (v : SetVal) (h : Spec.OwnValue d a v)
    (hr : d.roots ≠ none ∨ d.stems = true) (hn : d.own.card ≠ 1) (k : Setting) (hk : Spec.Moves k) :
    (s.apply d (.me a k)).2 = some .assertion := by
  have hroot : d.rooted = true := by
    rcases hr with h | h
    · rcases hd : d.roots with _ | r
      · exact absurd hd h
      · simp [SDInfo.rooted, hd]
    · simp [SDInfo.rooted, h]
  simp only [SDSt.apply]
  rw [set_own s h k]
  rcases hk with rfl | rfl
  · simp [FieldSt.set, FieldSt.setTran, hroot, hn]
  · simp [FieldSt.set, FieldSt.setTfun, hroot]

/-- When a value of its own is accepted: a proposal without transition; a transition
without proposal, of one variable or without roots and stems; an inverse that is a function,
of several variables without roots and stems; a delta that is not a number, or is one for
the very variables whose deltas are used. -/
def Spec.Accepts (d : SDInfo) (s : SDSt) (v : SetVal) : Setting → Prop
  | .prop => s.me.tran = none
  | .tran => s.me.prop = none ∧ (d.own.card = 1 ∨ d.roots = none ∧ d.stems = false)
  | .tfun => ((∃ f, v = .fn f) ∨ ∃ n, v = .rf n) ∧ 2 ≤ d.own.card ∧ d.roots = none ∧ d.stems = false
  | .delta => (∀ c, v ≠ .scalar c) ∨ d.own = d.keys s.dtype

/-- C78: values of its own are accepted exactly then; what is refused is refused by
AssertionError, number deltas of other variables by TypeError. -/
theorem C78_accepted (d : SDInfo) (s : SDSt) (a : SetArg) (v : SetVal) (h : Spec.OwnValue d a v)
    (k : Setting) :
    ((s.apply d (.me a k)).2 = none ↔ Spec.Accepts d s v k) ∧
    (¬ Spec.Accepts d s v k →
      (s.apply d (.me a k)).2 = some (if k = .delta then .type else .assertion)) := by
  have hroot : d.rooted = true ↔ ¬ (d.roots = none ∧ d.stems = false) := by
    cases hr : d.roots <;> cases hs : d.stems <;> simp [SDInfo.rooted, hr, hs]
  simp only [SDSt.apply]
  rw [set_own s h k]
  cases k with
  | prop =>
    cases ht : s.me.tran <;> simp [FieldSt.set, FieldSt.setProp, Spec.Accepts, ht]
  | tran =>
    cases hp : s.me.prop with
    | some p => simp [FieldSt.set, FieldSt.setTran, Spec.Accepts, hp]
    | none =>
      by_cases hc : d.own.card = 1
      · simp [FieldSt.set, FieldSt.setTran, Spec.Accepts, hp, hc]
      · by_cases hr : d.rooted = true
        · have := hroot.mp hr
          simp [FieldSt.set, FieldSt.setTran, Spec.Accepts, hp, hc, hr, this]
        · have := not_not.mp (mt hroot.mpr hr)
          simp [FieldSt.set, FieldSt.setTran, Spec.Accepts, hp, hc, hr, this]
  | tfun =>
    by_cases hr : d.rooted = true
    · have := hroot.mp hr
      cases v <;> simp [FieldSt.set, FieldSt.setTfun, Spec.Accepts, hr, this, SetVal.isFn]
    · have := not_not.mp (mt hroot.mpr hr)
      by_cases hc : 2 ≤ d.own.card
      · have h2 : ¬ d.own.card < 2 := by omega
        cases v <;> simp [FieldSt.set, FieldSt.setTfun, Spec.Accepts, hr, this, SetVal.isFn, hc, h2]
      · have h2 : d.own.card < 2 := by omega
        cases v <;> simp [FieldSt.set, FieldSt.setTfun, Spec.Accepts, hr, this, SetVal.isFn, hc, h2]
  | delta =>
    by_cases ho : d.own = d.keys s.dtype <;> cases v <;>
      simp [FieldSt.set, FieldSt.setDelta, Spec.Accepts, ho]

/-- C78: a process of one variable that has a transition steps, whatever of its own is
set. -/
theorem C78_unit_steps (d : SDInfo) (rfs : ℕ → FieldSt) (ops : List SDOp) (hu : d.unitTran = true)
    (hops : ∀ op ∈ ops, Spec.OwnValueOp d op) :
    ((SDSt.new d rfs).run d ops).sample d = .ok (.step .self) := by
  have hp : ((SDSt.new d rfs).run d ops).propObj = none := by
    rw [(run_own ops (SDSt.new d rfs) hops).1]; rfl
  simp [SDSt.sample, hu, SDSt.stepper, hp, bind, Except.bind, pure, Except.pure]

/-- C78: with neither proposal nor transition of its own, `propose` is that of the roots, or
of the leafs if there are no roots; otherwise its own. -/
theorem C78_default_proposer (d : SDInfo) (rfs : ℕ → FieldSt) (ops : List SDOp)
    (hops : ∀ op ∈ ops, Spec.OwnValueOp d op) :
    (Spec.lastOwn .prop none ops = none → Spec.lastOwn .tran none ops = none →
      (∀ r, d.roots = some r → ((SDSt.new d rfs).run d ops).proposer d = .ok (.rf r)) ∧
      (d.roots = none → ((SDSt.new d rfs).run d ops).proposer d = .ok (.rf d.leafs))) ∧
    (Spec.lastOwn .prop none ops ≠ none ∨ Spec.lastOwn .tran none ops ≠ none →
      ((SDSt.new d rfs).run d ops).proposer d = .ok .self) := by
  obtain ⟨h1, h2⟩ := run_own ops (SDSt.new d rfs) hops
  have hp : ((SDSt.new d rfs).run d ops).propObj = none := by rw [h1]; rfl
  have h3 : ((SDSt.new d rfs).run d ops).me.tran = Spec.lastOwn .tran none ops := h2 .tran
  have h4 : ((SDSt.new d rfs).run d ops).me.prop = Spec.lastOwn .prop none ops := h2 .prop
  refine ⟨fun a b => ⟨fun r hr => ?_, fun hr => ?_⟩, fun h => ?_⟩
  · simp [SDSt.proposer, hp, h3, h4, a, b, hr]
  · simp [SDSt.proposer, hp, h3, h4, a, b, hr]
  · have : (((SDSt.new d rfs).run d ops).me.tran.isSome ||
        ((SDSt.new d rfs).run d ops).me.prop.isSome) = true := by
      rw [h3, h4]
      rcases h with h | h <;> simp [Option.isSome_iff_ne_none, h]
    simp [SDSt.proposer, hp, this]

/-- ...and with roots no number as delta unless the deltas of a field with all its
variables are used. -/
theorem C78_number_delta (d : SDInfo) (s : SDSt) (v : ℕ) :
    (s.apply d (.me (.val (.scalar v)) .delta)).2 = none ↔ d.own = d.keys s.dtype := by
  have ho : Spec.OwnValue d (.val (.scalar v)) (.scalar v) := ⟨rfl, fun n hn => nomatch hn⟩
  simp only [SDSt.apply]
  rw [set_own s ho .delta]
  simp [FieldSt.set, FieldSt.setDelta]

/-- C78: a new process with roots accepts no number as delta. -/
theorem C78_number_delta_roots (d : SDInfo) (rfs : ℕ → FieldSt) (r : ℕ) (hr : d.roots = some r)
    (hk : d.keys r ≠ d.own) (v : ℕ) :
    ((SDSt.new d rfs).apply d (.me (.val (.scalar v)) .delta)).2 ≠ none := by
  rw [Ne, C78_number_delta]
  simpa [SDSt.new, hr] using fun h => hk h.symm

/-! ### None -/

/-- The claim: None unsets. -/
def C78_none_claim : Prop :=
  ∀ (d : SDInfo) (s : SDSt) (k : Setting), (s.apply d (.me .none k)).2 = none ∧
    (s.apply d (.me .none k)).1.me.held k = none

/-- C78: None never unsets: it is an AttributeError, whatever is held stays, and after it
nothing can propose or step until a subfield is set. -/
theorem C78_none_breaks (d : SDInfo) (s : SDSt) (k : Setting) :
    (s.apply d (.me .none k)).2 = some .attribute ∧ (s.apply d (.me .none k)).1.me = s.me ∧
    ∀ ops, (∀ op ∈ ops, ∀ a k', op = .me a k' → ∀ n, ¬ Spec.Stands d a n) →
      ((s.apply d (.me .none k)).1.run d ops).stepper = .error .attribute ∧
      ((s.apply d (.me .none k)).1.run d ops).proposer d = .error .attribute := by
  refine ⟨rfl, rfl, fun ops hops => ?_⟩
  have h0 : (s.apply d (.me .none k)).1.propObj = some .dict := rfl
  generalize (s.apply d (.me .none k)).1 = t at *
  have key : (t.run d ops).propObj = some .dict := by
    induction ops generalizing t with
    | nil => exact h0
    | cons op ops ih =>
        refine ih (fun o ho => hops o (by simp [ho])) _ ?_
        cases op with
        | rf _ _ _ => exact h0
        | me b k' =>
            simp only [SDSt.apply]
            rcases arg_cases d b with rfl | ⟨m, hm⟩ | ⟨v, hv⟩ | ⟨x, rfl, hx⟩
            · rfl
            · exact absurd hm (hops _ (by simp) b k' rfl m)
            · rw [set_own t hv k']
              exact h0
            · rw [set_absent t hx k']
              exact h0
  simp [SDSt.stepper, SDSt.proposer, key]

theorem C78_none_claim_fails : ¬ C78_none_claim := fun h => by
  have := (h justPair (SDSt.new justPair withTran) .tran).1
  rw [(C78_none_breaks justPair _ .tran).1] at this
  simp at this

/-! ### Proposal and transition -/

/-- The claim: after settings that were all accepted not both a proposal and a transition
are set. -/
def C78_both_claim : Prop :=
  ∀ (d : SDInfo) (rfs : ℕ → FieldSt) (op op' : SDOp),
    ((SDSt.new d rfs).apply d op).2 = none → (((SDSt.new d rfs).apply d op).1.apply d op').2 = none →
    ¬ (((SDSt.new d rfs).run d [op, op']).me.prop ≠ none ∧
      ((SDSt.new d rfs).run d [op, op']).me.tran ≠ none)

/-- All settings are accepted, one after the other. -/
def Spec.AllAccepted (d : SDInfo) : SDSt → List SDOp → Prop
  | _, [] => True
  | s, op :: ops => (s.apply d op).2 = none ∧ Spec.AllAccepted d (s.apply d op).1 ops

/-- C78: it holds for values of its own. -/
theorem C78_both_partial (d : SDInfo) (rfs : ℕ → FieldSt) (ops : List SDOp)
    (hops : ∀ op ∈ ops, Spec.OwnValueOp d op) (ha : Spec.AllAccepted d (SDSt.new d rfs) ops) :
    ¬ (((SDSt.new d rfs).run d ops).me.prop ≠ none ∧ ((SDSt.new d rfs).run d ops).me.tran ≠ none) := by
  have key : ∀ (ops : List SDOp) (s : SDSt), (s.me.prop = none ∨ s.me.tran = none) →
      (∀ op ∈ ops, Spec.OwnValueOp d op) → Spec.AllAccepted d s ops →
      ((s.run d ops).me.prop = none ∨ (s.run d ops).me.tran = none) := by
    intro ops
    induction ops with
    | nil => exact fun _ h _ _ => h
    | cons op ops ih =>
        intro s hs hops ha
        refine ih _ ?_ (fun o ho => hops o (by simp [ho])) ha.2
        have hop := hops op (by simp)
        have hacc := ha.1
        cases op with
        | rf _ _ _ => exact hs
        | me b k =>
            obtain ⟨v, hv⟩ := hop
            simp only [SDSt.apply] at hacc ⊢
            rw [set_own s hv k] at hacc ⊢
            cases k with
            | prop =>
                right
                simp only [FieldSt.set, FieldSt.setProp] at hacc ⊢
                rcases ht : s.me.tran with _ | t
                · rfl
                · simp [ht] at hacc
            | tran =>
                left
                simp only [FieldSt.set, FieldSt.setTran] at hacc ⊢
                rcases ht : s.me.prop with _ | t
                · rfl
                · simp [ht] at hacc
            | tfun => exact hs
            | delta => exact hs
  rcases key ops (SDSt.new d rfs) (.inl rfl) hops ha with h | h <;> simp [h]

/-- C78 refuted: a transition of the leafs is accepted beside a proposal. -/
theorem C78_both_claim_fails : ¬ C78_both_claim := by
  intro h
  have := h justPair withTran (.me (.val (.fn 5)) .prop) (.me (.str "leafs".toList) .tran)
    (by simp [SDSt.apply, SDSt.set, SDInfo.leafsRoots, SDSt.new, FieldSt.set, FieldSt.setProp, SetArg.given])
    (by simp [SDSt.apply, SDSt.set, SDInfo.leafsRoots, SDInfo.sub])
  simp [SDSt.run, SDSt.apply, SDSt.set, SDInfo.leafsRoots, SDInfo.sub, justPair, SDSt.new, withTran,
    FieldSt.hold, FieldSt.held, FieldSt.set, FieldSt.setProp, SetArg.given] at this

/-- The claim: what is refused leaves the process as it was. -/
def C78_refused_claim : Prop :=
  ∀ (d : SDInfo) (s : SDSt) (a : SetArg) (k : Setting), (s.apply d (.me a k)).2 ≠ none →
    (s.apply d (.me a k)).1.me.held k = s.me.held k

/-- C78 refuted: it stays assigned, for every value of its own. -/
theorem C78_refused_stays (d : SDInfo) (s : SDSt) (a : SetArg) (v : SetVal) (h : Spec.OwnValue d a v)
    (k : Setting) : (s.apply d (.me a k)).1.me.held k = some v := by
  simp only [SDSt.apply]
  rw [set_own s h k]
  show (FieldSt.set _ _ _ _ _ _ _).1.held k = _
  rw [set_held, if_pos rfl]

theorem C78_refused_claim_fails : ¬ C78_refused_claim := by
  intro h
  have ho : Spec.OwnValue pairOnPair (.val (.fn 5)) (.fn 5) := ⟨rfl, fun n hn => nomatch hn⟩
  have h1 := h pairOnPair (SDSt.new pairOnPair withTran) _ .tran (by
    rw [C78_rooted_refused pairOnPair _ _ _ ho (.inl (by simp [pairOnPair])) (by decide) .tran (.inl rfl)]
    simp)
  rw [C78_refused_stays pairOnPair _ _ _ ho .tran] at h1
  simp [SDSt.new, FieldSt.held] at h1

/-! ### Cases of the hypotheses -/

/-- The transition of the roots is taken, then deltas of the roots, and a proposal is set on
the leafs: the roots step. -/
example : (SDSt.run pairOnPair (SDSt.new pairOnPair withTran) ([.rf 0 (some (.scalar 2)) .delta] ++
    .me (.str "roots".toList) .tran :: [.me (.val (.rf 1)) .delta, .rf 0 none .tran])).sample pairOnPair =
    .ok (.step (.rf 1)) :=
  (C78_steps_partial pairOnPair _ _ _ _ 1 (.roots 1 rfl) .tran (.inl rfl)
    (by simp [SDSt.run, SDSt.apply, SDSt.new, withTran, FieldSt.held, Function.update])
    (by
      intro op hop
      simp only [List.mem_cons, List.not_mem_nil, or_false] at hop
      rcases hop with rfl | rfl
      · refine ⟨by simp [Spec.Moves], by simp, fun m hm => ?_⟩
        cases hm <;> rfl
      · trivial)).1

/-- A process of two variables given a proposal, and then a transition, which is refused
but assigned: it steps. -/
example : ((SDSt.new justPair fun _ => ⟨none, none, none, none⟩).run justPair
    [.me (.val (.fn 1)) .prop, .me (.val (.pair 2 3)) .tran]).sample justPair = .ok (.step .self) := by
  have := (C78_own_partial justPair (fun _ => ⟨none, none, none, none⟩)
    [.me (.val (.fn 1)) .prop, .me (.val (.pair 2 3)) .tran] rfl (by
      intro op hop
      simp only [List.mem_cons, List.not_mem_nil, or_false] at hop
      rcases hop with rfl | rfl
      · exact ⟨.fn 1, rfl, fun n hn => nomatch hn⟩
      · exact ⟨.pair 2 3, rfl, fun n hn => nomatch hn⟩) _ rfl).2
  rw [this]
  simp [Spec.lastOwn]

/-- A transition alone is accepted. -/
example : Spec.AllAccepted justPair (SDSt.new justPair withTran)
    [.me (.val (.pair 2 3)) .tran, .me (.val (.scalar 1)) .delta, .me (.val (.fn 1)) .tfun] := by
  have hc : ({['x'], ['y']} : Finset Str).card = 2 := by decide
  simp [Spec.AllAccepted, SDSt.apply, SDSt.set, SDInfo.leafsRoots, justPair, SDSt.new, FieldSt.set,
    FieldSt.setTran, FieldSt.setDelta, FieldSt.setTfun, SetArg.given, SDInfo.rooted, SetVal.isFn]

/-- A function as inverse is accepted by two variables without roots, refused with roots. -/
example : ((SDSt.new justPair withTran).apply justPair (.me (.val (.fn 4)) .tfun)).2 = none ∧
    ((SDSt.new pairOnPair withTran).apply pairOnPair (.me (.val (.fn 4)) .tfun)).2 = some .assertion := by
  refine ⟨(C78_accepted justPair _ _ (.fn 4) ⟨rfl, fun n hn => nomatch hn⟩ .tfun).1.mpr
      ⟨.inl ⟨4, rfl⟩, by decide, rfl, rfl⟩,
    (C78_accepted pairOnPair _ _ (.fn 4) ⟨rfl, fun n hn => nomatch hn⟩ .tfun).2 ?_⟩
  rintro ⟨-, -, h, -⟩
  simp [pairOnPair] at h

/-- One variable with a transition, given a proposal: steps. -/
example : ((SDSt.new { justPair with unitTran := true } withTran).run { justPair with unitTran := true }
    [.me (.val (.fn 1)) .prop]).sample { justPair with unitTran := true } = .ok (.step .self) :=
  C78_unit_steps _ _ _ rfl (by
    intro op hop
    simp only [List.mem_cons, List.not_mem_nil, or_false] at hop
    subst hop
    exact ⟨.fn 1, rfl, fun n hn => nomatch hn⟩)

/-- Only deltas set: the roots propose. -/
example : ((SDSt.new pairOnPair withTran).run pairOnPair [.me (.val (.fn 1)) .delta]).proposer pairOnPair =
    .ok (.rf 1) :=
  ((C78_default_proposer pairOnPair withTran [.me (.val (.fn 1)) .delta] (by
    intro op hop
    simp only [List.mem_cons, List.not_mem_nil, or_false] at hop
    subst hop
    exact ⟨.fn 1, rfl, fun n hn => nomatch hn⟩)).1 (by simp [Spec.lastOwn]) (by simp [Spec.lastOwn])).1 1 rfl

end Probayes
