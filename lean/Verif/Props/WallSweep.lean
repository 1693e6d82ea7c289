import Verif.Props.WallChains
import Verif.Props.FlowChains
/-
C67, sweeps of flow proposals on a target with hard boundaries.
-/
open MeasureTheory ProbabilityTheory
open scoped ENNReal
set_option linter.unusedSectionVars false
namespace FlowMC
open Spec
noncomputable section
open Classical

variable {Ω D M O : Type} {d : ℕ}
variable {S : Set (Fin d → ℝ)} {lp : (Fin d → ℝ) → ℝ} {g : (Fin d → ℝ) → Fin d → ℝ} {t : Target XR D d} {data : Data D}

theorem flowBatches_lift {e : Env ℝ D d M O} {E : Env XR D d M O} (h : Lifts e E) (m : M) (s nb : ℕ) (k : Key) :
    flowBatches E.ops m s nb k = (flowBatches e.ops m s nb k).map (List.map emb) := by
  induction nb generalizing k with
  | zero => rfl
  | succ nb ih => simp only [flowBatches, h.sample, ih, List.map_cons]

theorem sampleFlow_lift {e : Env ℝ D d M O} {E : Env XR D d M O} (h : Lifts e E) (m : M) (batch : ℕ) (k : Key) (n : ℕ) :
    sampleFlow E.ops m batch k n = (sampleFlow e.ops m batch k n).map (fun p => (emb p.1, XR.fin p.2)) := by
  unfold sampleFlow
  split
  · simp only [flowBatches_lift h, List.map_take, List.map_flatten, List.map_map]
    congr 3
    funext b
    simp [h.logProb]
  · simp [h.sample, h.logProb]

theorem lifts_lawful {e : Env ℝ D d M O} {E : Env XR D d M O} (h : Lifts e E) (hl : e.ops.Lawful) : E.ops.Lawful := by
  intro m k n; rw [h.sample, List.length_map]; exact hl m k n

theorem nfScan_wall (hW : Walled S lp g t data) (lnf : (Fin d → ℝ) → ℝ) (rng : Rng ℝ) (ps : List (Fin d → ℝ)) (k : Key) (x : Fin d → ℝ) (hx : x ∈ S) (j : ℕ) (hj : j < ps.length) :
    ((nfScan (liftRng rng) k ⟨emb x, t.val (emb x) data, .fin (lnf x)⟩ (ps.map fun y => (emb y, t.val (emb y) data, XR.fin (lnf y))))[j]?).map (·.pos) =
      some (emb (sweepAt (wallStep S Prod.snd (flowR lp lnf)) (j + 1) ps.length x (fun i => ps[i]) (fun i => rng.uniform (stepKey k i)))) := by
  induction ps generalizing k x j with
  | nil => simp at hj
  | cons y ps ih =>
    set x' := wallStep S Prod.snd (flowR lp lnf) (y, rng.uniform (stepKey k 0)) x with hx'
    have hbody := flow_wall hW lnf (y, rng.uniform (stepKey k 0)) x hx
    have hnext : (nfBody (XR.fin (rng.uniform (.child k 1))) ⟨emb x, t.val (emb x) data, .fin (lnf x)⟩ (emb y, t.val (emb y) data, XR.fin (lnf y))).1 =
        ⟨emb x', t.val (emb x') data, .fin (lnf x')⟩ := by
      have hp : (nfBody (XR.fin (rng.uniform (.child k 1))) ⟨emb x, t.val (emb x) data, .fin (lnf x)⟩ (emb y, t.val (emb y) data, XR.fin (lnf y))).2.pos = emb x' := hbody
      simp only [nfBody] at hp ⊢
      split at hp
      · next hacc =>
        have : y = x' := by rw [← unemb_emb y, hp, unemb_emb]
        simp only [if_pos hacc, ← this]
      · next hacc =>
        have : x = x' := by rw [← unemb_emb x, hp, unemb_emb]
        simp only [if_neg hacc, ← this]
    have hscan : nfScan (liftRng rng) k ⟨emb x, t.val (emb x) data, .fin (lnf x)⟩ ((y :: ps).map fun y => (emb y, t.val (emb y) data, XR.fin (lnf y))) =
      (nfBody (XR.fin (rng.uniform (.child k 1))) ⟨emb x, t.val (emb x) data, .fin (lnf x)⟩ (emb y, t.val (emb y) data, XR.fin (lnf y))).2 ::
        nfScan (liftRng rng) (.child k 0) (nfBody (XR.fin (rng.uniform (.child k 1))) ⟨emb x, t.val (emb x) data, .fin (lnf x)⟩ (emb y, t.val (emb y) data, XR.fin (lnf y))).1
          (ps.map fun y => (emb y, t.val (emb y) data, XR.fin (lnf y))) := rfl
    rw [hscan]
    cases j with
    | zero =>
      simp only [List.getElem?_cons_zero, Option.map_some, Option.some.injEq]
      exact hbody
    | succ j =>
      rw [List.getElem?_cons_succ, hnext, ih (.child k 0) x' (wallStep_mem hx) j (by simpa using hj)]
      rfl

theorem wall_group_sweep (hW : Walled S lp g t data) {e : Env ℝ D d M O} {E : Env XR D d M O} (hE : Lifts e E) (hl : e.ops.Lawful) (m : M) (batch : ℕ) (hb : 0 < batch)
    (hn : IgnoresNSteps t) (n : ℕ) (k : Key) (x : Fin d → ℝ) (hx : x ∈ S) :
    ∃ rows, groupSample E m batch t data n k (emb x) = .ok rows ∧ rows.length = n ∧ ∀ j, j < n → (rows[j]?).map (·.pos) =
      some (emb (sweepAt (wallStep S Prod.snd (flowR lp (e.ops.logProb m))) (j + 1) n x (fun i : Fin n => flowProposal e.ops m batch (.child k 1) n i)
        (fun i : Fin n => e.rng.uniform (stepKey (.child k 0) i)))) := by
  obtain ⟨rows, hr, hlen⟩ := groupSample_ok E (lifts_lawful hE hl) m batch hb t data n k (emb x)
  refine ⟨rows, hr, hlen, ?_⟩
  intro j hj
  simp only [groupSample, nfKernel] at hr
  have hb' : ¬ (batch = 0 ∧ 0 < n) := by omega
  rw [if_neg hb'] at hr
  simp only [Except.ok.injEq] at hr
  subst hr
  have hc := C27_count e.ops hl m batch hb (.child k 1) n
  have hlp := C27_target_logprob t { data with nSteps := some n } batch hb ((sampleFlow E.ops m batch (.child k 1) n).map (·.1))
  rw [List.length_map, sampleFlow_lift hE, List.length_map, hc] at hlp
  simp only [split, sampleFlow_lift hE, hlp]
  set ps := (sampleFlow e.ops m batch (.child k 1) n).map (·.1) with hps
  have hfl := C27_flow_logprob e.ops m batch (.child k 1) n
  have hpr : ((((sampleFlow e.ops m batch (.child k 1) n).map (fun p => (emb p.1, XR.fin p.2))).zip
      ((((sampleFlow e.ops m batch (.child k 1) n).map (fun p => (emb p.1, XR.fin p.2))).map (·.1)).map (fun x => t.val x { data with nSteps := some n }))).map
      (fun pl => (pl.1.1, pl.2, pl.1.2))) = ps.map (fun y => (emb y, t.val (emb y) data, XR.fin (e.ops.logProb m y))) := by
    rw [hps]
    generalize sampleFlow e.ops m batch (.child k 1) n = l at hfl
    clear * - hfl hn
    induction l with
    | nil => rfl
    | cons p ps ih =>
      simp only [List.map_cons, List.zip_cons_cons, ih (fun q hq => hfl q (by simp [hq]))]
      rw [hfl p (by simp), show t.val (emb p.1) { data with nSteps := some n } = t.val (emb p.1) data from hn _ data.user (some n) data.nSteps]
  rw [hpr]
  have hlen' : ps.length = n := by simp [hps, hc]
  rw [hE.rng, hE.logProb]
  have := nfScan_wall hW (e.ops.logProb m) e.rng ps (.child k 0) x hx j (by rw [hlen']; exact hj)
  rw [this]
  congr 2
  have gen : ∀ (n' : ℕ) (w : ℕ → Fin d → ℝ), ps.length = n' → (∀ i (h : i < ps.length), ps[i] = w i) →
      sweepAt (wallStep S Prod.snd (flowR lp (e.ops.logProb m))) (j + 1) ps.length x (fun i => ps[i]) (fun i => e.rng.uniform (stepKey (.child k 0) i)) =
      sweepAt (wallStep S Prod.snd (flowR lp (e.ops.logProb m))) (j + 1) n' x (fun i : Fin n' => w i) (fun i : Fin n' => e.rng.uniform (stepKey (.child k 0) i)) := by
    intro n' w h hw
    subst h
    congr 1
    funext i
    exact hw i i.2
  refine gen n (flowProposal e.ops m batch (.child k 1) n) hlen' ?_
  intro i hi
  have hi' : i < (sampleFlow e.ops m batch (.child k 1) n).length := by simpa [hps] using hi
  simp [flowProposal, hps, hi']

theorem sweepAt_mem (r : (Fin d → ℝ) × (Fin d → ℝ) → ℝ) (j n : ℕ) (x : Fin d → ℝ) (hx : x ∈ S) (v : Fin n → Fin d → ℝ) (u : Fin n → ℝ) :
    sweepAt (wallStep S Prod.snd r) j n x v u ∈ S := by
  induction n generalizing j x with
  | zero => cases j <;> exact hx
  | succ n ih =>
    cases j with
    | zero => exact hx
    | succ j => exact ih j _ (wallStep_mem hx) _ _

variable {past : MeasurableSpace Ω} {sig : Key → MeasurableSpace Ω} [mΩ : MeasurableSpace Ω] {P : Measure Ω} [IsProbabilityMeasure P] {env : Ω → Env ℝ D d M O} {T : Key → Prop}

theorem wall_sweep_law (h : IdealOn T past sig P env) (hW : Walled S lp g t data) (env' : Ω → Env XR D d M O) (hE : ∀ ω, Lifts (env ω) (env' ω))
    (m : M) (q : Measure (Fin d → ℝ)) [IsProbabilityMeasure q] (lnf : (Fin d → ℝ) → ℝ) (hlnf : Measurable lnf) (hf : IdealFlowOn T P sig env m q lnf) (batch : ℕ) (hb : 0 < batch)
    (hn : IgnoresNSteps t) (μ : Measure (Fin d → ℝ)) [IsProbabilityMeasure μ] (hμ : ∃ Z : ℝ≥0∞, μ = Z • wallMeasure S lp) (n : ℕ) (k : Key) (hT : ∀ a, Desc k a → T a)
    (A : Set (Option Key)) (hA : Disjoint A (descSet k)) (X : Ω → Fin d → ℝ) (hXS : ∀ ω, X ω ∈ S) (hX : Measurable[info past sig A] X) (hlaw : P.map X = μ)
    (rows : Ω → List (StepOut XR d)) (hrows : ∀ ω, groupSample (env' ω) m batch t data n k (emb (X ω)) = .ok (rows ω)) (j : ℕ) (hj : j < n) :
    ∃ Y : Ω → Fin d → ℝ, (∀ ω, ((rows ω)[j]?).map (·.pos) = some (emb (Y ω)) ∧ Y ω ∈ S) ∧ Measurable[info past sig (A ∪ descSet k)] Y ∧ P.map Y = μ := by
  have hsm := wallStep_measurable (q := Prod.snd) hW.meas measurable_snd (flowR_measurable hW hlnf)
  have hinv : Invariant μ (q.prod unif) (wallStep S Prod.snd (flowR lp lnf)) := by
    have hr := wallStep_reversible hW.meas measurable_snd (flowR_measurable hW hlnf) (C26_flow_reversible (innerTarget lp g) data hW.meas_lp lnf hlnf q hf.density)
    obtain ⟨Z, rfl⟩ := hμ
    exact (hr.invariant hsm).smul Z
  obtain ⟨h1, h2⟩ := sweep_law_step h m q lnf hf batch hb _ hsm μ hinv n k hT A hA X hX hlaw (j + 1)
  refine ⟨_, fun ω => ⟨?_, sweepAt_mem _ _ _ _ (hXS ω) _ _⟩, h2, h1⟩
  obtain ⟨r, e, -, hr⟩ := wall_group_sweep hW (hE ω) (hf.lawful ω) m batch hb hn n k (X ω) (hXS ω)
  rw [hrows ω, Except.ok.injEq] at e
  rw [e, hr j hj, hf.logProb ω]

/-- **C67 (flow sweeps).** A sweep of `n` flow proposals on a target with hard boundaries, started inside with the truncated target distribution and independently
of the draws: the call succeeds, every one of its `n` rows is a finite point inside the region, and has the truncated target distribution. -/
theorem C67_sweep_rows (h : IdealDraws past sig P env) (hW : Walled S lp g t data) (env' : Ω → Env XR D d M O) (hE : ∀ ω, Lifts (env ω) (env' ω))
    (m : M) (q : Measure (Fin d → ℝ)) [IsProbabilityMeasure q] (lnf : (Fin d → ℝ) → ℝ) (hlnf : Measurable lnf) (hf : IdealFlow P sig env m q lnf) (batch : ℕ) (hb : 0 < batch)
    (hn : IgnoresNSteps t) (μ : Measure (Fin d → ℝ)) [IsProbabilityMeasure μ] (hμ : ∃ Z : ℝ≥0∞, μ = Z • wallMeasure S lp) (n : ℕ) (k : Key)
    (X : Ω → Fin d → ℝ) (hXS : ∀ ω, X ω ∈ S) (hX : Measurable[past] X) (hlaw : P.map X = μ) :
    ∃ rows : Ω → List (StepOut XR d), (∀ ω, groupSample (env' ω) m batch t data n k (emb (X ω)) = .ok (rows ω) ∧ (rows ω).length = n) ∧
      ∀ j, j < n → ∃ Y : Ω → Fin d → ℝ, (∀ ω, ((rows ω)[j]?).map (·.pos) = some (emb (Y ω)) ∧ Y ω ∈ S) ∧ Measurable Y ∧ P.map Y = μ := by
  have hA : Disjoint ({none} : Set (Option Key)) (descSet k) := by
    rw [Set.disjoint_left]; rintro o ho ⟨a, rfl, _⟩; simp at ho
  choose rows hrows using fun ω => wall_group_sweep hW (hE ω) (hf.lawful ω) m batch hb hn n k (X ω) (hXS ω)
  refine ⟨rows, fun ω => ⟨(hrows ω).1, (hrows ω).2.1⟩, fun j hj => ?_⟩
  obtain ⟨Y, h1, h2, h3⟩ := wall_sweep_law h hW env' hE m q lnf hlnf hf batch hb hn μ hμ n k (fun _ _ => trivial) {none} hA X hXS (hX.mono (past_le_info (by simp)) le_rfl) hlaw rows
    (fun ω => (hrows ω).1) j hj
  exact ⟨Y, h1, h2.mono (h.info_le _) le_rfl, h3⟩

end
end FlowMC
