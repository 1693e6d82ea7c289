import Verif.Spec.Agree
import Verif.Props.StepCall
/-
C84: a strategy only depends on the resources it is configured to use.
-/
set_option linter.unusedSectionVars false
namespace FlowMC
open Spec

variable {F D M O : Type} {d : ℕ} {S : Set String}

theorem Spec.ResAgree.get {h h' : Heap F D d M O} (hA : ResAgree S h h') {n : String} (hn : n ∈ S) : h.get n = h'.get n := by
  simp only [Heap.get, hA.1 n hn]

theorem Spec.ResAgree.getState {h h' : Heap F D d M O} (hA : ResAgree S h h') {n : String} (hn : n ∈ S) : h.getState n = h'.getState n := by
  simp only [Heap.getState, hA.get hn]

theorem Spec.ResAgree.getBuffer {h h' : Heap F D d M O} (hA : ResAgree S h h') {n : String} (hn : n ∈ S) : h.getBuffer n = h'.getBuffer n := by
  simp only [Heap.getBuffer, hA.get hn]

theorem Spec.ResAgree.getModel {h h' : Heap F D d M O} (hA : ResAgree S h h') {n : String} (hn : n ∈ S) : h.getModel n = h'.getModel n := by
  simp only [Heap.getModel, hA.get hn]

theorem Spec.ResAgree.getOptimizer {h h' : Heap F D d M O} (hA : ResAgree S h h') {n : String} (hn : n ∈ S) : h.getOptimizer n = h'.getOptimizer n := by
  simp only [Heap.getOptimizer, hA.get hn]

theorem Spec.ResAgree.getKernel {h h' : Heap F D d M O} (hA : ResAgree S h h') {n : String} (hn : n ∈ S) : h.getKernel n = h'.getKernel n := by
  simp only [Heap.getKernel, hA.get hn]

theorem Spec.ResAgree.getTempered {h h' : Heap F D d M O} (hA : ResAgree S h h') {n : String} (hn : n ∈ S) : h.getTempered n = h'.getTempered n := by
  simp only [Heap.getTempered, hA.get hn]

theorem Spec.ResAgree.setRes {h h' : Heap F D d M O} (hA : ResAgree S h h') (n : String) (r : Resource F D d M O) : ResAgree S (h.setRes n r) (h'.setRes n r) := by
  refine ⟨fun x hx => ?_, hA.2⟩
  simp only [Heap.setRes, dictSet, hA.1 x hx]

theorem Spec.ResAgree.setPos {h h' : Heap F D d M O} (hA : ResAgree S h h') (i : String) (n : ℕ) : ResAgree S (h.setPos i n) (h'.setPos i n) := by
  refine ⟨hA.1, fun j => ?_⟩
  simp only [Heap.setPos, hA.2 j]

theorem Spec.ResAgree.updateBuffer {h h' : Heap F D d M O} (hA : ResAgree S h h') {n : String} (hn : n ∈ S) (u : NDArr F) (i : Int) :
    SameOutcome S (h.updateBuffer n u i) (h'.updateBuffer n u i) := by
  unfold Heap.updateBuffer
  rw [hA.getBuffer hn]
  cases h'.getBuffer n with
  | error e => exact ⟨rfl, hA⟩
  | ok b =>
    simp only
    cases b.updateBuffer u i with
    | error e => exact ⟨rfl, hA⟩
    | ok b' => exact ⟨rfl, hA.setRes _ _⟩

/-- Two outcomes that are the same either both raise or both return. -/
theorem sameOutcome_cases {α : Type} {r r' : PyRes F D d M O α} (hr : SameOutcome S r r') :
    (∃ e h h', r = (.error e, h) ∧ r' = (.error e, h') ∧ ResAgree S h h') ∨ ∃ a h h', r = (.ok a, h) ∧ r' = (.ok a, h') ∧ ResAgree S h h' := by
  obtain ⟨a, h⟩ := r
  obtain ⟨a', h'⟩ := r'
  obtain ⟨e, hA⟩ := hr
  simp only at e hA
  subst e
  cases a with
  | error e => exact .inl ⟨e, h, h', rfl, rfl, hA⟩
  | ok a => exact .inr ⟨a, h, h', rfl, rfl, hA⟩

variable [Zero F] [One F] [Add F] [Mul F] [Div F] [Sub F] [Neg F] [NatCast F] [Transc F] [FCmp F] [BufNum F]

/-- The names a step strategy uses: its kernel, log-density and state, and the buffers its state entries point at. -/
def Spec.UsesOnly (s : TakeSteps) (h : Heap F D d M O) (S : Set String) : Prop :=
  s.kernelName ∈ S ∧ s.logpdfName ∈ S ∧ s.stateName ∈ S ∧
    ∀ st, h.res s.stateName = some (.state st) → ∀ key ∈ s.bufferNames, ∀ n, st.data key = some (.str n) → n ∈ S

theorem bufferTarget_mem {st : State} {names : List String} {i : ℕ} {n : String} (h : bufferTarget st names i = .ok n) : ∃ key ∈ names, st.data key = some (.str n) := by
  unfold bufferTarget at h
  split at h
  · cases h
  · rename_i key hk
    refine ⟨key, List.mem_of_getElem? hk, ?_⟩
    split at h
    · cases h
    · cases h; assumption
    · cases h

theorem plan_agree (env : Env F D d M O) (s : TakeSteps) (k : Key) (xs : List (Pos F d)) (data : Data D) (h h' : Heap F D d M O) (hA : ResAgree S h h') (hU : UsesOnly s h S) :
    s.plan env k xs data h = s.plan env k xs data h' ∧ ∀ p, s.plan env k xs data h = .ok p → p.posName ∈ S ∧ p.lpName ∈ S ∧ p.accName ∈ S := by
  obtain ⟨hk, hl, hst, hb⟩ := hU
  unfold TakeSteps.plan
  simp only [hA.getState hst, hA.get hk, hA.get hl]
  cases e : h'.getState s.stateName with
  | error e => exact ⟨rfl, fun p hp => by cases hp⟩
  | ok st =>
    have hs : h.res s.stateName = some (.state st) := by
      rw [hA.1 _ hst]
      simp only [Heap.getState, Heap.get] at e
      cases er : h'.res s.stateName with
      | none => rw [er] at e; cases e
      | some r => rw [er] at e; cases r <;> simp_all
    have mem : ∀ i n, bufferTarget st s.bufferNames i = .ok n → n ∈ S := fun i n hn => by
      obtain ⟨key, h1, h2⟩ := bufferTarget_mem hn
      exact hb st hs key h1 n h2
    simp only [bind, Except.bind]
    cases e0 : bufferTarget st s.bufferNames 0 with
    | error e => exact ⟨rfl, fun p hp => by cases hp⟩
    | ok n0 =>
      simp only
      cases e1 : bufferTarget st s.bufferNames 1 with
      | error e => exact ⟨rfl, fun p hp => by cases hp⟩
      | ok n1 =>
        simp only
        cases e2 : bufferTarget st s.bufferNames 2 with
        | error e => exact ⟨rfl, fun p hp => by cases hp⟩
        | ok n2 =>
          simp only [hA.getBuffer (mem _ _ e0), hA.getBuffer (mem _ _ e1), hA.getBuffer (mem _ _ e2)]
          refine ⟨trivial, fun p hp => ?_⟩
          have : p.posName = n0 ∧ p.lpName = n1 ∧ p.accName = n2 := by
            split at hp <;> try cases hp
            split at hp <;> try cases hp
            split at hp <;> try cases hp
            split at hp <;> try cases hp
            split at hp <;> try cases hp
            split at hp <;> try cases hp
            split at hp <;> try cases hp
            split at hp <;> cases hp
            exact ⟨rfl, rfl, rfl⟩
          rw [this.1, this.2.1, this.2.2]
          exact ⟨mem _ _ e0, mem _ _ e1, mem _ _ e2⟩

/-- If the plan is the same on two dictionaries that agree on the planned buffers, so is the outcome of the call. -/
theorem run_agree_of_plan (env : Env F D d M O) (s : TakeSteps) (k : Key) (xs : List (Pos F d)) (data : Data D) (h h' : Heap F D d M O) (hA : ResAgree S h h')
    (e : s.plan env k xs data h = s.plan env k xs data h') (hm : ∀ p, s.plan env k xs data h = .ok p → p.posName ∈ S ∧ p.lpName ∈ S ∧ p.accName ∈ S) :
    SameOutcome S (s.run env k xs data h) (s.run env k xs data h') := by
  unfold TakeSteps.run
  rw [← e]
  cases ep : s.plan env k xs data h with
  | error er => exact ⟨rfl, hA⟩
  | ok p =>
    obtain ⟨m0, m1, m2⟩ := hm p ep
    simp only [TakeSteps.commit, hA.2]
    rcases sameOutcome_cases (hA.updateBuffer m0 (posArr xs.length s.nRows p.rows) ((h'.pos s.ident : ℕ) : ℤ)) with ⟨er, h1, h1', e1, e1', hA1⟩ | ⟨_, h1, h1', e1, e1', hA1⟩
    · simp only [e1, e1']; exact ⟨rfl, hA1⟩
    simp only [e1, e1']
    rcases sameOutcome_cases (hA1.updateBuffer m1 (lpArr xs.length s.nRows p.rows) ((h'.pos s.ident : ℕ) : ℤ)) with ⟨er, h2, h2', e2, e2', hA2⟩ | ⟨_, h2, h2', e2, e2', hA2⟩
    · simp only [e2, e2']; exact ⟨rfl, hA2⟩
    simp only [e2, e2']
    rcases sameOutcome_cases (hA2.updateBuffer m2 (accArr xs.length s.nRows p.rows) ((h'.pos s.ident : ℕ) : ℤ)) with ⟨er, h3, h3', e3, e3', hA3⟩ | ⟨_, h3, h3', e3, e3', hA3⟩
    · simp only [e3, e3']; exact ⟨rfl, hA3⟩
    simp only [e3, e3', hA3.2]
    cases lastRows p.rows with
    | error er => exact ⟨rfl, hA3.setPos _ _⟩
    | ok xs => exact ⟨rfl, hA3.setPos _ _⟩

/-- **C84 (steps).** A call of a step strategy depends only on its kernel, its log-density, its state and the buffers the state points it at: on two resource dictionaries that agree on these (and on anything else
in `S`), it returns the same key and positions, or raises the same exception, and leaves dictionaries that still agree on `S`. -/
theorem C84_take_steps (env : Env F D d M O) (s : TakeSteps) (k : Key) (xs : List (Pos F d)) (data : Data D) (h h' : Heap F D d M O) (hA : ResAgree S h h') (hU : UsesOnly s h S) :
    SameOutcome S (s.run env k xs data h) (s.run env k xs data h') :=
  let ⟨e, hm⟩ := plan_agree env s k xs data h h' hA hU
  run_agree_of_plan env s k xs data h h' hA e hm

/-- **C84 (training).** A call of `TrainModel` depends only on its model, optimizer, data and loss resources. -/
theorem C84_train_model (env : Env F D d M O) (s : TrainModel) (k : Key) (xs : List (Pos F d)) (h h' : Heap F D d M O) (hA : ResAgree S h h')
    (h1 : s.modelName ∈ S) (h2 : s.dataName ∈ S) (h3 : s.optimizerName ∈ S) (h4 : s.lossBufferName ∈ S) :
    SameOutcome S (s.run env k xs h) (s.run env k xs h') := by
  unfold TrainModel.run TrainModel.plan
  rw [hA.getModel h1, hA.getBuffer h2, hA.getOptimizer h3]
  split
  · exact ⟨rfl, hA⟩
  · rename_i r hr
    have : SameOutcome S (recordLosses s.lossBufferName r.losses h) (recordLosses s.lossBufferName r.losses h') := by
      unfold recordLosses
      by_cases hn : s.lossBufferName = ""
      · simp only [hn, if_true]; exact ⟨rfl, hA⟩
      · simp only [hn, if_false, hA.getBuffer h4]
        cases h'.getBuffer s.lossBufferName with
        | error e => exact ⟨rfl, hA⟩
        | ok b =>
          simp only
          cases b.updateBuffer (arr1 BufNum.negInf r.losses) b.cursor with
          | error e => exact ⟨rfl, hA⟩
          | ok b' => exact ⟨rfl, hA.setRes _ _⟩
    rcases sameOutcome_cases this with ⟨er, h1, h1', e1, e1', hA1⟩ | ⟨_, h1, h1', e1, e1', hA1⟩
    · simp only [e1, e1']; exact ⟨rfl, hA1⟩
    · simp only [e1, e1']; exact ⟨rfl, (hA1.setRes _ _).setRes _ _⟩

/-- **C84 (state updates).** -/
theorem C84_update_state (s : UpdateState) (k : Key) (xs : List (Pos F d)) (h h' : Heap F D d M O) (hA : ResAgree S h h') (h1 : s.stateName ∈ S) :
    SameOutcome S (s.run k xs h) (s.run k xs h') := by
  unfold UpdateState.run
  rw [hA.getState h1]
  cases h'.getState s.stateName with
  | error e => exact ⟨rfl, hA⟩
  | ok st => exact ⟨rfl, hA.setRes _ _⟩

/-- **C84 (tempering).** A call of `ParallelTempering` depends only on its kernel, tempered density, state and two buffers. -/
theorem C84_tempering (env : Env F D d M O) (s : ParallelTempering) (k : Key) (xs : List (Pos F d)) (data : Data D) (h h' : Heap F D d M O) (hA : ResAgree S h h')
    (h1 : s.kernelName ∈ S) (h2 : s.temperedLogpdfName ∈ S) (h3 : s.stateName ∈ S) (h4 : ∀ n ∈ s.bufferNames, n ∈ S) :
    SameOutcome S (s.run env k xs data h) (s.run env k xs data h') := by
  have mem : ∀ i n, nthName s.bufferNames i = .ok n → n ∈ S := by
    intro i n hn
    unfold nthName at hn
    split at hn
    · cases hn; exact h4 _ (List.mem_of_getElem? ‹_›)
    · cases hn
  have key : s.plan env k xs data h = s.plan env k xs data h' ∧ ∀ p, s.plan env k xs data h' = .ok p → p.posName ∈ S ∧ p.tempName ∈ S := by
    unfold ParallelTempering.plan
    simp only [hA.getKernel h1, hA.getTempered h2, hA.getState h3, bind, Except.bind]
    cases h'.getKernel s.kernelName with
    | error e => exact ⟨rfl, fun p hp => by cases hp⟩
    | ok kr =>
      simp only
      cases h'.getTempered s.temperedLogpdfName with
      | error e => exact ⟨rfl, fun p hp => by cases hp⟩
      | ok l =>
        simp only
        cases e0 : nthName s.bufferNames 0 with
        | error e => exact ⟨rfl, fun p hp => by cases hp⟩
        | ok n0 =>
          simp only [hA.getBuffer (mem _ _ e0)]
          cases h'.getBuffer n0 with
          | error e => exact ⟨rfl, fun p hp => by cases hp⟩
          | ok pb =>
            simp only
            cases e1 : nthName s.bufferNames 1 with
            | error e => exact ⟨rfl, fun p hp => by cases hp⟩
            | ok n1 =>
              simp only [hA.getBuffer (mem _ _ e1)]
              refine ⟨trivial, fun p hp => ?_⟩
              have : p.posName = n0 ∧ p.tempName = n1 := by
                split at hp <;> try cases hp
                split at hp <;> try cases hp
                split at hp <;> try cases hp
                split at hp <;> try cases hp
                split at hp <;> cases hp
                exact ⟨rfl, rfl⟩
              rw [this.1, this.2]
              exact ⟨mem _ _ e0, mem _ _ e1⟩
  unfold ParallelTempering.run
  rw [key.1]
  cases ep : s.plan env k xs data h' with
  | error er => exact ⟨rfl, hA⟩
  | ok p =>
    obtain ⟨m0, m1⟩ := key.2 p ep
    simp only
    split
    · rcases sameOutcome_cases (hA.updateBuffer m0 (arr3 BufNum.negInf xs.length (p.newTemps.length - 1) (p.positions.map (·.tail))) 0) with ⟨er, h1, h1', e1, e1', hA1⟩ | ⟨_, h1, h1', e1, e1', hA1⟩
      · simp only [e1, e1']; exact ⟨rfl, hA1⟩
      simp only [e1, e1']
      rcases sameOutcome_cases (hA1.updateBuffer m1 (arr1 BufNum.negInf p.newTemps) 0) with ⟨er, h2, h2', e2, e2', hA2⟩ | ⟨_, h2, h2', e2, e2', hA2⟩
      · simp only [e2, e2']; exact ⟨rfl, hA2⟩
      · simp only [e2, e2']; exact ⟨rfl, hA2⟩
    · exact ⟨rfl, hA⟩

end FlowMC
