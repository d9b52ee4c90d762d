/-
Helper lemmas for the sampler state machine.
-/
import Verif.Model.SP

namespace Probayes

variable {σ D Ω : Type _}

/-- Sampler `g` is registered under its own id, running, with the given stop,
last state and counter. -/
structure Live (S : SPState σ D) (g : ℕ) (stop : Option ℤ) (l : Option (OPQR D)) (c : ℕ) :
    Prop where
  gen : ∃ i, S.gens g = ⟨i, stop, false⟩ ∧ S.samplers[i]? = some g
  last : S.last g = some l
  counter : S.counter g = c

/-- `S'` differs from `S` at most in sampler `g` and the process state. -/
structure Others (S S' : SPState σ D) (g : ℕ) : Prop where
  samplers : S'.samplers = S.samplers
  made : S'.made = S.made
  gens : ∀ h, h ≠ g → S'.gens h = S.gens h
  last : ∀ h, h ≠ g → S'.last h = S.last h
  counter : ∀ h, h ≠ g → S'.counter h = S.counter h

theorem spNext_live (P : Proc σ D Ω) (S : SPState σ D) (g i : ℕ) (l : Option (OPQR D)) (ω : Ω)
    (hi : S.samplers[i]? = some g) (hl : S.last g = some l) :
    spNext P S i ω =
      ({ S with counter := Function.update S.counter g (S.counter g + 1),
                last := Function.update S.last g (some (nextCore P l ω S.st).2.1),
                st := (nextCore P l ω S.st).1 }, (nextCore P l ω S.st).2.2) := by
  simp only [spNext, getSampler, hi, hl]

theorem genNext_live (P : Proc σ D Ω) (S : SPState σ D) (g : ℕ) (stop : Option ℤ)
    (l : Option (OPQR D)) (c : ℕ) (ω : Ω) (h : Live S g stop l c)
    (hc : ∀ n, stop = some n → (c : ℤ) < n) (x : Out D)
    (hx : (nextCore P l ω S.st).2.2 = .ok x) :
    ∃ S', genNext P S g ω = (S', .ok x) ∧ Live S' g stop (nextCore P l ω S.st).2.1 (c + 1) ∧
      Others S S' g ∧ S'.st = (nextCore P l ω S.st).1 := by
  obtain ⟨⟨i, hg, hs⟩, hl, hcnt⟩ := h
  refine ⟨{ S with counter := Function.update S.counter g (S.counter g + 1),
                   last := Function.update S.last g (some (nextCore P l ω S.st).2.1),
                   st := (nextCore P l ω S.st).1 }, ?_, ?_, ?_, rfl⟩
  · rcases stop with _ | n
    · simp [genNext, genAdvance, hg, spNext_live P S g i l ω hs hl, hx]
    · have := hc n rfl
      simp [genNext, genAdvance, hg, spNext_live P S g i l ω hs hl, hx, getSampler, hs, hcnt, this]
  · exact ⟨⟨i, hg, hs⟩, by simp, by simp [hcnt]⟩
  · refine ⟨rfl, rfl, fun _ _ => rfl, fun h hh => ?_, fun h hh => ?_⟩ <;> simp [hh]

theorem genNext_stop (P : Proc σ D Ω) (S : SPState σ D) (g : ℕ) (n : ℤ)
    (l : Option (OPQR D)) (c : ℕ) (ω : Ω) (h : Live S g (some n) l c) (hc : n ≤ c) :
    genNext P S g ω = ((resetGen S g).finish g, .error .stopIteration) := by
  obtain ⟨⟨i, hg, hs⟩, hl, hcnt⟩ := h
  have : ¬ (c : ℤ) < n := not_lt.mpr hc
  simp [genNext, genAdvance, hg, getSampler, hs, hcnt, this]

theorem genNext_error (P : Proc σ D Ω) (S : SPState σ D) (g : ℕ) (stop : Option ℤ)
    (l : Option (OPQR D)) (c : ℕ) (ω : Ω) (h : Live S g stop l c)
    (hc : ∀ n, stop = some n → (c : ℤ) < n) (e : Err)
    (hx : (nextCore P l ω S.st).2.2 = .error e) :
    (genNext P S g ω).2 = .error e := by
  obtain ⟨⟨i, hg, hs⟩, hl, hcnt⟩ := h
  rcases stop with _ | n
  · simp [genNext, genAdvance, hg, spNext_live P S g i l ω hs hl, hx]
  · have := hc n rfl
    simp [genNext, genAdvance, hg, spNext_live P S g i l ω hs hl, hx, getSampler, hs, hcnt, this]

theorem live_mkSampler (S : SPState σ D) (stop : Option ℤ) :
    Live (mkSampler S stop) S.made stop none 0 := by
  refine ⟨⟨S.samplers.length, by simp [mkSampler], by simp [mkSampler]⟩, by simp [mkSampler],
    by simp [mkSampler]⟩

end Probayes
