import Verif.Lemmas.WallAdaptive
import Verif.Lemmas.LoopMeas
/-
Training on a target with hard boundaries: what is recorded are finite points inside, measurable functions of the draws made in training.
-/
open MeasureTheory
set_option linter.unusedSectionVars false
namespace FlowMC
open Spec
noncomputable section
open Classical

theorem XR.measurable_fin : Measurable XR.fin := fun _ h => h

theorem XR.measurableSet_iff {s : Set XR} : MeasurableSet s ↔ MeasurableSet (XR.fin ⁻¹' s) := Iff.rfl

theorem XR.measurable_toReal : Measurable XR.toReal := fun s h => by
  rw [XR.measurableSet_iff]; exact h

theorem emb_measurable {d : ℕ} : Measurable (emb : (Fin d → ℝ) → Pos XR d) := measurable_pi_lambda _ fun i => XR.measurable_fin.comp (measurable_pi_apply i)

theorem XR.measurable_const (s : Set XR) (h : (∀ x, XR.fin x ∈ s) ∨ ∀ x, XR.fin x ∉ s) : MeasurableSet s := by
  rw [XR.measurableSet_iff]
  rcases h with h | h
  · have : XR.fin ⁻¹' s = Set.univ := by ext x; simp [h]
    rw [this]; exact MeasurableSet.univ
  · have : XR.fin ⁻¹' s = ∅ := by ext x; simp [h]
    rw [this]; exact MeasurableSet.empty

theorem blt_measurable_xr : MeasurableSet {p : XR × XR | FCmp.blt p.1 p.2 = true} := by
  have hf : MeasurableSet {x : XR | ∃ a, x = .fin a} := XR.measurable_const _ (Or.inl fun x => ⟨x, rfl⟩)
  have hn : MeasurableSet {x : XR | x = .ninf} := XR.measurable_const _ (Or.inr fun x => by simp)
  have hp : MeasurableSet {x : XR | x = .pinf} := XR.measurable_const _ (Or.inr fun x => by simp)
  have e : {p : XR × XR | FCmp.blt p.1 p.2 = true} =
      ((Prod.fst ⁻¹' {x : XR | ∃ a, x = .fin a} ∩ Prod.snd ⁻¹' {x : XR | ∃ a, x = .fin a}) ∩ {p | p.1.toReal < p.2.toReal}) ∪
      ((Prod.fst ⁻¹' {x : XR | x = .ninf} ∩ Prod.snd ⁻¹' ({x : XR | ∃ a, x = .fin a} ∪ {x | x = .pinf})) ∪ (Prod.fst ⁻¹' {x : XR | ∃ a, x = .fin a} ∩ Prod.snd ⁻¹' {x | x = .pinf})) := by
    ext ⟨x, y⟩
    cases x <;> cases y <;> simp [FCmp.blt, XR.blt, XR.toReal]
  rw [e]
  exact (((measurable_fst hf).inter (measurable_snd hf)).inter (measurableSet_lt (XR.measurable_toReal.comp measurable_fst) (XR.measurable_toReal.comp measurable_snd))).union
    (((measurable_fst hn).inter (measurable_snd (hf.union hp))).union ((measurable_fst hf).inter (measurable_snd hp)))

variable {Ω D M O V Z : Type} {d : ℕ} [mB : MeasurableSpace Ω] [MeasurableSpace M] [MeasurableSpace O] [MeasurableSpace Z]
variable {S : Set (Fin d → ℝ)} {lp : (Fin d → ℝ) → ℝ} {g : (Fin d → ℝ) → Fin d → ℝ} {t : Target XR D d} {data : Data D}
variable {U : Key → Prop} {env : Ω → Env ℝ D d M O} {push : M → Z → Pos ℝ d} {lnf : M → Pos ℝ d → ℝ} {G : Set M}

/-- A serial chain inside the walls is a measurable function of the draws. -/
theorem DrawSetup.wallSerial (h : DrawSetup U env push lnf G) {q r} (hsm : Measurable fun p : (Fin d → ℝ) × ((Fin d → ℝ) × ℝ) => freeStep S q r p.2 p.1) (kr : KernelRes XR d M) (hk : WallKernel S t data kr q r) (K : Ω → LocalKernel XR D d)
    (hK : ∀ ω, kr.local? (liftRng (env ω).rng) = some (K ω)) (j : ℕ) : ∀ (k : Key) (_ : ∀ a, Desc k a → U a) (X : Ω → Fin d → ℝ) (_ : Measurable X) (_ : ∀ ω, X ω ∈ S),
    ∃ Y : Ω → Fin d → ℝ, Measurable Y ∧ ∀ ω, (iterState (localBody (K ω) t data) j (k, emb (X ω), t.val (emb (X ω)) data)).2.1 = emb (Y ω) ∧ Y ω ∈ S := by
  induction j with
  | zero => intro k _ X hX hS; exact ⟨X, hX, fun ω => ⟨rfl, hS ω⟩⟩
  | succ j ih =>
    intro k hT X hX hXS
    set X' : Ω → Fin d → ℝ := fun ω => freeStep S q r ((env ω).rng.normal (.child (.child k 1) 0) d, (env ω).rng.uniform (.child (.child k 1) 1)) (X ω) with hX'd
    have hbody : ∀ ω, (localBody (K ω) t data (k, emb (X ω), t.val (emb (X ω)) data)).1 = (.child k 0, emb (X' ω), t.val (emb (X' ω)) data) := by
      intro ω
      have := hk (env ω).rng (K ω) (hK ω) (.child k 1) (X ω) (hXS ω)
      simp only [localBody, split, this.1, this.2, hX'd, freeStep_eq (hXS ω)]
    have hX' : Measurable X' :=
      hsm.comp (hX.prodMk ((h.normal _ (hT _ (desc_trans desc_child_self desc_child_self)) d).prodMk (h.uniform _ (hT _ (desc_trans desc_child_self desc_child_self)))))
    obtain ⟨Y, hY, e⟩ := ih (.child k 0) (fun a ha => hT a (desc_trans desc_child_self ha)) X' hX' (fun ω => freeStep_mem (hXS ω))
    refine ⟨Y, hY, fun ω => ?_⟩
    simp only [iterState, hbody]; exact e ω

/-- A flow sweep inside the walls is a measurable function of the draws. -/
theorem DrawSetup.wallSweep (h : DrawSetup U env push lnf G) (batch : ℕ) (hb : 0 < batch) (hS : MeasurableSet S) (hlp : Measurable lp)
    (m : Ω → M) (hm : Measurable m) (hG : ∀ ω, m ω ∈ G) (n : ℕ) (k : Key) (hT : ∀ a, Desc k a → U a) (X : Ω → Pos ℝ d) (hX : Measurable X) (j : ℕ) :
    Measurable fun ω => sweepAt (wallFlowStep S lp lnf (m ω)) j n (X ω) (fun i : Fin n => flowProposal (env ω).ops (m ω) batch (.child k 1) n i)
        (fun i : Fin n => (env ω).rng.uniform (stepKey (.child k 0) i)) := by
  obtain ⟨z, zm, ze⟩ := h.base batch hb (.child k 1) (fun a ha => hT a (desc_trans desc_child_self ha)) n
  have um : Measurable fun ω => (fun i : Fin n => (env ω).rng.uniform (stepKey (.child k 0) i)) :=
    measurable_pi_lambda _ fun i => h.uniform _ (hT _ (desc_trans desc_child_self (.child 1 (desc_carryKey _ _))))
  have hsm := onSndAt_measurable (wallFlowStep_measurable (S := S) (lp := lp) hS hlp h.pushMeas h.lnfMeas m hm)
  have hmeas := sweepAt_measurable (onSndAt (pushBy (wallFlowStep S lp lnf) push m)) hsm j n
  have e : ∀ ω, sweepAt (wallFlowStep S lp lnf (m ω)) j n (X ω) (fun i : Fin n => flowProposal (env ω).ops (m ω) batch (.child k 1) n i)
        (fun i : Fin n => (env ω).rng.uniform (stepKey (.child k 0) i)) =
      (sweepAt (onSndAt (pushBy (wallFlowStep S lp lnf) push m)) j n (ω, X ω) (z ω) (fun i : Fin n => (env ω).rng.uniform (stepKey (.child k 0) i))).2 := by
    intro ω
    rw [sweepAt_onSndAt]
    simp only [ze ω _ (hG ω)]
    exact sweepAt_push _ (push (m ω)) j n (X ω) (z ω) _
  simp only [e]
  have h2 : Measurable fun p : (Ω × Pos ℝ d) × ((Fin n → Z) × (Fin n → ℝ)) => (sweepAt (onSndAt (pushBy (wallFlowStep S lp lnf) push m)) j n p.1 p.2.1 p.2.2).2 :=
    measurable_snd.comp hmeas
  have h3 : Measurable fun ω : Ω => (((ω, X ω), (z ω, fun i : Fin n => (env ω).rng.uniform (stepKey (.child k 0) i))) : (Ω × Pos ℝ d) × ((Fin n → Z) × (Fin n → ℝ))) :=
    (measurable_id.prodMk hX).prodMk (zm.prodMk um)
  exact h2.comp h3

/-- A finite point inside the walls, measurable. -/
def WV (S : Set (Fin d → ℝ)) (f : Ω → Option (Pos XR d)) : Prop := ∃ X : Ω → Fin d → ℝ, Measurable X ∧ ∀ ω, f ω = some (emb (X ω)) ∧ X ω ∈ S

variable [BufNum XR]

theorem DrawSetup.wallBlocks (h : DrawSetup U env push lnf G) (env' : Ω → Env XR D d M O) (hL : ∀ ω, Lifts (env ω) (env' ω)) (c : BundleCfg XR D d M O) (hc : GoodCfg c) (hig : IgnoresNSteps c.logpdf)
    (hW : Walled S lp g c.logpdf data) {a : ℝ} (ha : a ≠ 0) (has : c.stepSize = .fin a)
    (hsm : Measurable fun p : (Fin d → ℝ) × ((Fin d → ℝ) × ℝ) => freeStep S (malaQ g a) (malaR lp g a) p.2 p.1) :
    BlockMeas (WV S) U env' c data G := by
  refine ⟨fun ω => lifts_lawful (hL ω) (h.lawful ω), ?_, ?_, ?_⟩
  · rintro f ⟨X, hX, e⟩; exact ⟨fun ω => emb (X ω), emb_measurable.comp hX, fun ω => (e ω).1⟩
  · rintro k hk xs b ys hb i ⟨X, hXm, hXi⟩ j hj
    have hj' : j * c.localThin < c.nLocal := by
      refine lt_of_lt_ceil hc.localThin hc.nLocal ?_
      rw [ceilDiv'_dvd _ _ hc.localThin hc.localDvd]; exact hj
    obtain ⟨Y, hY, hYe⟩ := h.wallSerial hsm (.mala (.fin a) : KernelRes XR d M) (mala_wallKernel hW a ha) (fun ω k x lp t data => malaKernel (env' ω).rng c.stepSize k x lp t data)
      (fun ω => by rw [(hL ω).rng, has]; rfl) (j * c.localThin + 1) (.child (.child k 1) i) (fun a ha => hk a (desc_trans desc_child_self ha)) X hXm (fun ω => (hXi ω).2)
    refine ⟨Y, hY, fun ω => ⟨?_, (hYe ω).2⟩⟩
    simp only []
    rw [cellOf, (hb ω).2.2.2 i (emb (X ω)) (hXi ω).1, Option.bind_some, everyNth_getElem? _ hc.localThin, ← (hYe ω).1]
    exact serialSample_state _ c.logpdf data c.nLocal _ (emb (X ω)) (j * c.localThin + 1) hj'
  · rintro m hm hG k hk xs b ys hb i ⟨X, hXm, hXi⟩ j hj
    have hj' : j * c.globalThin < c.nGlobal := by
      refine lt_of_lt_ceil hc.globalThin hc.nGlobal ?_
      rw [ceilDiv'_dvd _ _ hc.globalThin hc.globalDvd]; exact hj
    choose r hr hri using fun ω => (hb ω).2.2.2 i (emb (X ω)) (hXi ω).1
    refine ⟨_, h.wallSweep c.nfBatch hc.nfBatch hW.meas hW.meas_lp m hm hG c.nGlobal (.child (.child k 1) i) (fun a ha => hk a (desc_trans desc_child_self ha)) X hXm (j * c.globalThin + 1), fun ω => ⟨?_, ?_⟩⟩
    · simp only []
      rw [cellOf, hri ω, Option.bind_some, everyNth_getElem? _ hc.globalThin]
      obtain ⟨r', e, -, hr'⟩ := wall_group_sweep hW (hL ω) (h.lawful ω) (m ω) c.nfBatch hc.nfBatch hig c.nGlobal (.child (.child k 1) i) (X ω) (hXi ω).2
      rw [hr ω, Except.ok.injEq] at e
      rw [e, hr' _ hj', h.logProb ω _ (hG ω), wallFlowStep, sweepAt_free _ _ _ _ (hXi ω).2]
    · rw [wallFlowStep, sweepAt_free _ _ _ _ (hXi ω).2]; exact sweepAt_mem _ _ _ _ (hXi ω).2 _ _

/-- Chains started inside stay at finite points inside. -/
theorem wall_staysIn {e : Env ℝ D d M O} {E : Env XR D d M O} (hL : Lifts e E) (hl : e.ops.Lawful) (c : BundleCfg XR D d M O) (hc : GoodCfg c) (hig : IgnoresNSteps c.logpdf) (hW : Walled S lp g c.logpdf data)
    {a : ℝ} (ha : a ≠ 0) (has : c.stepSize = .fin a) (hfin : ∀ x : ℝ, BufNum.isFinite (XR.fin x) = true) : StaysIn E c data (fun x => ∃ y ∈ S, x = emb y) := by
  have step : ∀ j k, ∀ x ∈ S, ∃ y ∈ S, (iterState (localBody (fun k x lp t data => malaKernel E.rng c.stepSize k x lp t data) c.logpdf data) j (k, emb x, c.logpdf.val (emb x) data)).2.1 = emb y := by
    intro j
    induction j with
    | zero => intro k x hx; exact ⟨x, hx, rfl⟩
    | succ j ih =>
      intro k x hx
      have := mala_wallKernel (M := M) hW a ha e.rng _ rfl (.child k 1) x hx
      rw [← hL.rng, ← has] at this
      simp only [iterState, localBody, split, this.2]
      rw [this.1]
      exact ih (.child k 0) _ (wallStep_mem hx)
  refine ⟨?_, ?_, ?_⟩
  · rintro k _ ⟨x, hx, rfl⟩ o ho
    obtain ⟨j, hj⟩ := List.mem_iff_getElem?.1 ho
    have hjn : j < c.nLocal := by
      have := (List.getElem?_eq_some_iff.1 hj).1
      rwa [serialSample_length] at this
    have h1 := serialSample_state (fun k x lp t data => malaKernel E.rng c.stepSize k x lp t data) c.logpdf data c.nLocal k (emb x) (j + 1) hjn
    obtain ⟨y, hy, e⟩ := step (j + 1) k x hx
    rw [e] at h1
    have h1' : ((serialSample (fun k x lp t data => malaKernel E.rng c.stepSize k x lp t data) c.logpdf data c.nLocal k (emb x))[j]?).map (·.pos) = some (emb y) := h1
    rw [hj, Option.map_some, Option.some.injEq] at h1'
    exact ⟨y, hy, h1'⟩
  · rintro m k _ r ⟨x, hx, rfl⟩ hr o ho
    obtain ⟨r', e, hlen, hr'⟩ := wall_group_sweep hW hL hl m c.nfBatch hc.nfBatch hig c.nGlobal k x hx
    rw [hr, Except.ok.injEq] at e
    subst e
    obtain ⟨j, hj⟩ := List.mem_iff_getElem?.1 ho
    have hjn : j < c.nGlobal := by
      have := (List.getElem?_eq_some_iff.1 hj).1
      omega
    have h1 := hr' j hjn
    rw [hj, Option.map_some, Option.some.injEq] at h1
    exact ⟨_, sweepAt_mem _ _ _ _ hx _ _, h1⟩
  · rintro _ ⟨x, hx, rfl⟩ i; exact hfin _

end
end FlowMC
