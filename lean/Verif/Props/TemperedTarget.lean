import Verif.Props.Noninterference
/-
C64 (continued): a step strategy whose log-density resource is a `TemperedPDF` steps on the likelihood.
-/
set_option linter.unusedSectionVars false
namespace FlowMC
open Spec

variable {F D M O : Type} {d : ℕ}

theorem setRes_other (h : Heap F D d M O) (n : String) (r : Resource F D d M O) : ResAgree {m | m ≠ n} (h.setRes n r) h :=
  ⟨fun m hm => by simp only [Heap.setRes, dictSet]; rw [if_neg hm], fun _ => rfl⟩

variable [Zero F] [One F] [Add F] [Mul F] [Div F] [Sub F] [Neg F] [NatCast F] [Transc F] [FCmp F] [BufNum F]

/-- **C64 (steps).** A step strategy that is given a `TemperedPDF` as its log-density takes exactly the steps it would take with a plain `LogPDF` of the likelihood, whatever the prior: the same key and positions are
returned or the same exception raised, and every other resource and every cursor ends up the same.  (So outside the tempering strategy the prior handed to a `TemperedPDF` plays no role.) -/
theorem C64_step_target (env : Env F D d M O) (s : TakeSteps) (k : Key) (xs : List (Pos F d)) (data : Data D) (h : Heap F D d M O) (p : TemperedPDF F D d) (vs : List Variable)
    (hp : h.res s.logpdfName = some (.tempered p)) :
    SameOutcome {n | n ≠ s.logpdfName} (s.run env k xs data (h.setRes s.logpdfName (.logpdf ⟨p.base.logPdf, vs⟩))) (s.run env k xs data h) := by
  have hA := setRes_other h s.logpdfName (.logpdf ⟨p.base.logPdf, vs⟩)
  have hs : (h.setRes s.logpdfName (.logpdf ⟨p.base.logPdf, vs⟩)).res s.logpdfName = some (.logpdf ⟨p.base.logPdf, vs⟩) := by simp [Heap.setRes, dictSet]
  generalize h.setRes s.logpdfName (.logpdf ⟨p.base.logPdf, vs⟩) = h2 at hA hs
  have gs : ∀ n, h2.getState n = h.getState n := fun n => by
    by_cases hn : n = s.logpdfName
    · subst hn; simp only [Heap.getState, Heap.get, hs, hp]
    · exact hA.getState hn
  have gb : ∀ n, h2.getBuffer n = h.getBuffer n := fun n => by
    by_cases hn : n = s.logpdfName
    · subst hn; simp only [Heap.getBuffer, Heap.get, hs, hp]
    · exact hA.getBuffer hn
  have nb : ∀ n b, h.getBuffer n = .ok b → n ≠ s.logpdfName := fun n b hb hn => by
    subst hn; simp [Heap.getBuffer, Heap.get, hp] at hb
  have gl : ∀ kr, s.sampler env kr (.logpdf ⟨p.base.logPdf, vs⟩) data = s.sampler env kr (.tempered p) data := fun kr => rfl
  have g1 : h.get s.logpdfName = .ok (.tempered p) := by simp only [Heap.get, hp]
  have g2 : h2.get s.logpdfName = .ok (.logpdf ⟨p.base.logPdf, vs⟩) := by simp only [Heap.get, hs]
  refine run_agree_of_plan env s k xs data h2 h hA ?_ ?_
  · unfold TakeSteps.plan
    simp only [gs, gb, g1, g2, bind, Except.bind, gl]
    by_cases hk : s.kernelName = s.logpdfName
    · rw [hk, g1, g2]
      rfl
    · rw [hA.get hk]
  · intro q hq
    unfold TakeSteps.plan at hq
    simp only [gs, gb, bind, Except.bind] at hq
    split at hq <;> try cases hq
    split at hq <;> try cases hq
    split at hq <;> try cases hq
    split at hq <;> try cases hq
    split at hq <;> try cases hq
    split at hq <;> try cases hq
    split at hq <;> try cases hq
    split at hq <;> try cases hq
    split at hq <;> try cases hq
    split at hq <;> try cases hq
    split at hq <;> try cases hq
    split at hq <;> cases hq
    exact ⟨nb _ _ (by assumption), nb _ _ (by assumption), nb _ _ (by assumption)⟩

/-- Non-vacuity of C64_step_target: a dictionary with a tempered density under the strategy's name, and two different priors: the calls have the same outcome. -/
example (env : Env F D d M O) (s : TakeSteps) (k : Key) (xs : List (Pos F d)) (data : Data D) (h : Heap F D d M O) (l : LogPDF F D d) (g g' : Target F D d) :
    (s.run env k xs data (h.setRes s.logpdfName (.tempered ⟨l, g⟩))).1 = (s.run env k xs data (h.setRes s.logpdfName (.tempered ⟨l, g'⟩))).1 := by
  have h1 : (h.setRes s.logpdfName (.tempered ⟨l, g⟩)).res s.logpdfName = some (.tempered ⟨l, g⟩) := by simp [Heap.setRes, dictSet]
  have h2 : (h.setRes s.logpdfName (.tempered ⟨l, g'⟩)).res s.logpdfName = some (.tempered ⟨l, g'⟩) := by simp [Heap.setRes, dictSet]
  have e : (h.setRes s.logpdfName (.tempered ⟨l, g⟩)).setRes s.logpdfName (.logpdf ⟨l.logPdf, []⟩) = (h.setRes s.logpdfName (.tempered ⟨l, g'⟩)).setRes s.logpdfName (.logpdf ⟨l.logPdf, []⟩) := by
    simp only [Heap.setRes, dictSet, Heap.mk.injEq, and_true]
    funext n
    by_cases hn : n = s.logpdfName <;> grind [dictSet]
  have a := (C64_step_target env s k xs data _ _ [] h1).1
  have b := (C64_step_target env s k xs data _ _ [] h2).1
  exact a.symm.trans ((congrArg (fun h => (s.run env k xs data h).1) e).trans b)

end FlowMC
