import Verif.Props.AdaptiveRun
import Verif.Lemmas.LoopMeas
import Verif.Spec.Learning
/-
C83, end to end: training is a procedure that draws with its keys, so the trained flow is a random flow determined by what happened before production.
-/
open MeasureTheory ProbabilityTheory Filter
open scoped ENNReal Topology
set_option linter.unusedSectionVars false
namespace FlowMC
open Spec

variable {Ω D M O V Z : Type} {d : ℕ}
variable {past : MeasurableSpace Ω} {sig : Key → MeasurableSpace Ω} [mΩ : MeasurableSpace Ω] {P : Measure Ω} [IsProbabilityMeasure P] {env : Ω → Env ℝ D d M O}
  [MeasurableSpace M] [MeasurableSpace O] [MeasurableSpace Z] {ν : Measure Z} {push : M → Z → Pos ℝ d} {lnf : M → Pos ℝ d → ℝ} {G : Set M} [BufNum ℝ]

omit [BufNum ℝ] in
theorem sig_le_before {k a : Key} (h : ¬ Desc k a) : sig a ≤ before past sig k :=
  sig_le_info (by rintro ⟨b, e, hb⟩; exact h (by injection e with e; subst e; exact hb))

omit [BufNum ℝ] in
theorem past_le_before (k : Key) : past ≤ before past sig k :=
  past_le_info (by rintro ⟨b, e, -⟩; cases e)

omit [BufNum ℝ] in
theorem trainSetup_before {F : Type} [MeasurableSpace F] [FCmp F] (hlt : MeasurableSet {p : F × F | FCmp.blt p.1 p.2 = true}) {env : Ω → Env F D d M O} {past : MeasurableSpace Ω} (hT : OrdinaryTraining sig env G) (k : Key) :
    ∃ step stats big, @TrainSetup F Ω D M O d _ _ (before past sig k) _ _ (fun a => ¬ Desc k a) env G step stats big := by
  obtain ⟨step, s1, s2, s3⟩ := hT.step
  obtain ⟨stats, t1, t2, t3⟩ := hT.stats
  obtain ⟨big, hb⟩ := hT.big
  exact ⟨step, stats, big, @TrainSetup.mk F Ω D M O d _ _ (before past sig k) _ _ _ _ _ _ _ _ (fun a ha n => (hT.shuffle a n).mono (sig_le_before ha) le_rfl) (fun a ha n m => (hT.choose a n m).mono (sig_le_before ha) le_rfl) s1 s2 s3 t1 t2 t3 hb hlt⟩

omit [BufNum ℝ] in
theorem blt_measurable_real : MeasurableSet {p : ℝ × ℝ | FCmp.blt p.1 p.2 = true} := by simp only [blt_real]; exact measurableSet_lt measurable_fst measurable_snd

omit [BufNum ℝ] in
theorem drawSetup_before (h : IdealDraws past sig P env) (hF : FlowFamily (fun _ => True) P sig env ν push lnf G) (k : Key) :
    @DrawSetup Ω D M O Z d (before past sig k) _ _ (fun a => ¬ Desc k a) env push lnf G :=
  @DrawSetup.mk Ω D M O Z d (before past sig k) _ _ _ _ _ _ _ hF.lawful
    (fun a ha n => (h.normal_meas a trivial n).mono (sig_le_before ha) le_rfl)
    (fun a ha => (h.uniform_meas a trivial).mono (sig_le_before ha) le_rfl)
    hF.pushMeas hF.lnfMeas
    (fun a ha n => by
      obtain ⟨z, zm, -, ze⟩ := hF.rows a trivial n
      exact ⟨z, zm.mono (sig_le_before ha) le_rfl, ze⟩)
    hF.logProb

/-- What training leaves behind is determined by what happened before production. -/
theorem trained_before (h : IdealDraws past sig P env) (c : BundleCfg ℝ D d M O) (hc : GoodCfg c) (hfin : MeasurableSet {x : ℝ | BufNum.isFinite x = true}) (data : Data D)
    (hig : IgnoresNSteps c.logpdf) (ht : Measurable (fun x => c.logpdf.val x data)) (hg : Measurable (fun x => c.logpdf.grad x data))
    (hF : FlowFamily (fun _ => True) P sig env ν push lnf G) (hT : OrdinaryTraining sig env G) (hflow : c.flow ∈ G) (key : Key) (init : Ω → List (Pos ℝ d)) (hx : ∀ ω, (init ω).length = c.nChains)
    (hX : ∀ i < c.nChains, ∃ X : Ω → Pos ℝ d, Measurable[past] X ∧ ∀ ω, (init ω)[i]? = some (X ω)) (w : Ω → World ℝ D d M O)
    (hw : ∀ ω, Completes (env ω) (malaBundle c).strategies.lookup data (repeatPhase c.nTrainLoops trainingPhase ++ ["reset_steppers", "update_state"])
      ⟨key, init ω, ⟨(malaBundle c).resources, fun _ => 0⟩⟩ (w ω)) :
    ∃ m : Ω → M, Measurable[before past sig (trainedKey c.nTrainLoops c.nEpochs key)] m ∧ (∀ ω, m ω ∈ G) ∧ (∀ ω, (w ω).heap.res "global_sampler" = some (.kernel (.nf (m ω) c.nfBatch))) ∧
      ∀ i < c.nChains, ∃ X : Ω → Pos ℝ d, Measurable[before past sig (trainedKey c.nTrainLoops c.nEpochs key)] X ∧ ∀ ω, (w ω).xs[i]? = some (X ω) := by
  set k := trainedKey c.nTrainLoops c.nEpochs key with hk
  obtain ⟨step, stats, big, hTS⟩ := trainSetup_before blt_measurable_real (past := past) (sig := sig) hT k
  have hDS := drawSetup_before h hF k
  have hBM := @DrawSetup.blocks Ω D M O Z d (before past sig k) _ _ _ _ _ _ _ _ _ hDS c hc hig data ht hg
  obtain ⟨m, h1, h2, h3, h4⟩ := @training_meas ℝ Ω D M O d (before past sig k) _ _ _ _ _ _ _ _ _ _ _ _ _ _ _ _ _ _ _ _ _ hTS hfin c hc data hBM key (fun a ha => ha) hflow init hx (fun i hi => by
    obtain ⟨X, hX, e⟩ := hX i hi
    exact ⟨X, hX.mono (past_le_before k) le_rfl, e⟩) w hw
  exact ⟨m, h1, h2, h3, h4⟩

/-- **C83 (end to end).** A call of `sample` with the MALA bundle in an ideal random world.  Training is any procedure of the code's shape: its shuffles and choices of examples are drawn with their keys, the
optimisation step and the standardisation are any measurable functions that keep the flow in the family `G`; the initial positions are random, determined by the past.  Nothing is assumed about what training
achieves.  For every `ε > 0` there is `N` such that in a run with any number `n` of production loops the call returns, and every row from the `N`-th on of every chain in the production buffer is within `ε` of the
target in law and up to `ε` independent of everything that happened before production. -/
theorem C83_adaptive (h : IdealDraws past sig P env) (c : BundleCfg ℝ D d M O) (hn : 0 < c.nChains) (hb : 0 < c.batchSize) (hfin : ∀ x : ℝ, BufNum.isFinite x = true) (data : Data D)
    (hB : AdaptiveBundle (fun _ => True) P sig env c data ν push lnf G) (hT : OrdinaryTraining sig env G) (hflow : c.flow ∈ G) (key : Key) (init : Ω → InitPos ℝ d)
    (hx : ∀ ω, (init ω).atleast2d.length = c.nChains) (hX : ∀ i < c.nChains, ∃ X : Ω → Pos ℝ d, Measurable[past] X ∧ ∀ ω, (init ω).atleast2d[i]? = some (X ω)) (ε : ℝ) (hε : 0 < ε) :
    ∃ N, ∀ (n nd nc : ℕ) (kw : List (String × V)) (s : Sampler ℝ D d M O V), Sampler.new nd nc key none none none (some (malaBundle (c.withProd n))) kw = .ok s →
      ∃ s' : Ω → Sampler ℝ D d M O V, (∀ ω, s.sample (env ω) (init ω) data = (.ok (), s' ω)) ∧
        ∀ i < c.nChains, ∀ j < (c.withProd n).nProdSteps, N ≤ j → ∃ Y : Ω → Pos ℝ d, Measurable Y ∧
          CloseInLaw P Y (normalised (targetMeasure fun x => c.logpdf.val x data)) ε ∧
          FreshInLaw (before past sig (trainedKey c.nTrainLoops c.nEpochs key)) P Y (normalised (targetMeasure fun x => c.logpdf.val x data)) ε ∧
          ∀ ω, ∃ b, (s' ω).heap.res "positions_production" = some (.buffer b) ∧ ∀ a : Fin d, b.data.get [i, j, a] = Y ω a := by
  have hSt : ∀ ω, StaysIn (env ω) c data (fun _ => True) := fun ω => ⟨fun _ _ _ _ _ => trivial, fun _ _ _ _ _ _ _ _ => trivial, fun x _ i => hfin _⟩
  choose w w' h1 h2 using fun ω => bundle_total (env ω) (hB.flows.lawful ω) c hB.good data hn hb _ (hSt ω) key (init ω).atleast2d (hx ω) (fun _ _ => trivial)
  have hfin' : MeasurableSet {x : ℝ | BufNum.isFinite x = true} := by simp [hfin]
  obtain ⟨m, hm, hG, hmg, hX'⟩ := trained_before h c hB.good hfin' data hB.ignores hB.meas hB.gradMeas hB.flows hT hflow key (fun ω => (init ω).atleast2d) hx hX w h1
  choose! X hXm hXe using hX'
  exact C83_sample h c hn hb hfin data hB key init hx w h1 m hm hG hmg X hXm (fun ω i hi => hXe i hi ω) ε hε

end FlowMC
