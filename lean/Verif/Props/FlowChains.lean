import Verif.Lemmas.Sweep
import Verif.Props.Chains
/-
C26 (whole sweeps) and C28 for `TakeGroupSteps` with flow proposals.
-/
open MeasureTheory ProbabilityTheory
open scoped ENNReal
set_option linter.unusedSectionVars false
namespace FlowMC
open Spec

variable {Ω D M O : Type} {d : ℕ}

/-- One accept/reject decision of the flow kernel. -/
noncomputable def flowStep (t : Target ℝ D d) (data : Data D) (lnf : Pos ℝ d → ℝ) (w : Pos ℝ d × ℝ) (x : Pos ℝ d) : Pos ℝ d :=
  (nfBody w.2 ⟨x, t.val x data, lnf x⟩ (w.1, t.val w.1 data, lnf w.1)).2.pos

theorem flowStep_measurable (t : Target ℝ D d) (data : Data D) (lnf : Pos ℝ d → ℝ) (ht : Measurable (fun x => t.val x data)) (hl : Measurable lnf) :
    Measurable (fun p : Pos ℝ d × (Pos ℝ d × ℝ) => flowStep t data lnf p.2 p.1) := by
  simp only [flowStep, nfBody, acceptTest_real]
  refine Measurable.ite (measurableSet_lt (by fun_prop) ?_) (by fun_prop) measurable_fst
  exact ((ht.comp (by fun_prop)).sub (ht.comp measurable_fst)).sub ((hl.comp (by fun_prop)).sub (hl.comp measurable_fst))

theorem stepKey_child (k : Key) (i : ℕ) : stepKey (.child k 0) i = stepKey k (i + 1) := rfl

theorem nfScan_sweep (t : Target ℝ D d) (data : Data D) (lnf : Pos ℝ d → ℝ) (rng : Rng ℝ) (props : List (Pos ℝ d × ℝ × ℝ))
    (hp : ∀ p ∈ props, p.2.1 = t.val p.1 data ∧ p.2.2 = lnf p.1) (k : Key) (c : NFCarry ℝ d) (hc : c.logp = t.val c.pos data ∧ c.lognf = lnf c.pos)
    (j : ℕ) (hj : j < props.length) :
    ((nfScan rng k c props)[j]?).map (·.pos) =
      some (sweepAt (flowStep t data lnf) (j + 1) props.length c.pos (fun i => props[i].1) (fun i => rng.uniform (stepKey k i))) := by
  induction props generalizing k c j with
  | nil => simp at hj
  | cons p ps ih =>
    have hp0 := hp p (by simp)
    have hbody : (nfBody (rng.uniform (.child k 1)) c p).2.pos = flowStep t data lnf (p.1, rng.uniform (stepKey k 0)) c.pos := by
      simp only [flowStep, stepKey, carryKey, nfBody, hp0.1, hp0.2, hc.1, hc.2]
      rfl
    have hpos : (nfBody (rng.uniform (.child k 1)) c p).1.pos = (nfBody (rng.uniform (.child k 1)) c p).2.pos := rfl
    have hnext : (nfBody (rng.uniform (.child k 1)) c p).1.logp = t.val (nfBody (rng.uniform (.child k 1)) c p).1.pos data ∧
        (nfBody (rng.uniform (.child k 1)) c p).1.lognf = lnf (nfBody (rng.uniform (.child k 1)) c p).1.pos := by
      simp only [nfBody]
      split
      · exact hp0
      · exact hc
    have hscan : nfScan rng k c (p :: ps) = (nfBody (rng.uniform (.child k 1)) c p).2 :: nfScan rng (.child k 0) (nfBody (rng.uniform (.child k 1)) c p).1 ps := rfl
    rw [hscan]
    cases j with
    | zero =>
      simp only [List.getElem?_cons_zero, Option.map_some, hbody, Option.some.injEq]
      rfl
    | succ j =>
      rw [List.getElem?_cons_succ, ih (fun q hq => hp q (by simp [hq])) _ _ hnext j (by simpa using hj), hpos, hbody]
      rfl

/-- The `i`-th flow proposal of a call. -/
noncomputable def flowProposal (ops : FlowOps ℝ d M O) (m : M) (batch : ℕ) (k : Key) (n : ℕ) (i : ℕ) : Pos ℝ d :=
  ((sampleFlow ops m batch k n).map (·.1)).getD i 0

/-- The rows of a flow sweep as a function of proposals and uniform numbers. -/
theorem group_sweep (env : Env ℝ D d M O) (hl : env.ops.Lawful) (m : M) (batch : ℕ) (hb : 0 < batch) (t : Target ℝ D d) (hn : IgnoresNSteps t)
    (data : Data D) (n : ℕ) (k : Key) (x : Pos ℝ d) :
    ∃ rows, groupSample env m batch t data n k x = .ok rows ∧ rows.length = n ∧ ∀ j, j < n → (rows[j]?).map (·.pos) =
      some (sweepAt (flowStep t data (env.ops.logProb m)) (j + 1) n x (fun i : Fin n => flowProposal env.ops m batch (.child k 1) n i)
        (fun i : Fin n => env.rng.uniform (stepKey (.child k 0) i))) := by
  obtain ⟨rows, hr, hlen⟩ := groupSample_ok env hl m batch hb t data n k x
  refine ⟨rows, hr, hlen, ?_⟩
  intro j hj
  simp only [groupSample, nfKernel] at hr
  have hb' : ¬ (batch = 0 ∧ 0 < n) := by omega
  rw [if_neg hb'] at hr
  simp only [Except.ok.injEq] at hr
  subst hr
  have hc := C27_count env.ops hl m batch hb (.child k 1) n
  have hlp := C27_target_logprob t { data with nSteps := some n } batch hb ((sampleFlow env.ops m batch (.child k 1) n).map (·.1))
  rw [List.length_map, hc] at hlp
  simp only [split, hlp]
  have hpr : (((sampleFlow env.ops m batch (.child k 1) n).zip (((sampleFlow env.ops m batch (.child k 1) n).map (·.1)).map (fun x => t.val x { data with nSteps := some n }))).map
      (fun pl => (pl.1.1, pl.2, pl.1.2))) = (sampleFlow env.ops m batch (.child k 1) n).map (fun p => (p.1, t.val p.1 data, env.ops.logProb m p.1)) := by
    have hfl := C27_flow_logprob env.ops m batch (.child k 1) n
    generalize sampleFlow env.ops m batch (.child k 1) n = l at hfl
    clear hlen hlp hc
    induction l with
    | nil => rfl
    | cons p ps ih =>
      simp only [List.map_cons, List.zip_cons_cons, ih (fun q hq => hfl q (by simp [hq]))]
      rw [hfl p (by simp), show t.val p.1 { data with nSteps := some n } = t.val p.1 data from hn p.1 data.user (some n) data.nSteps]
  rw [hpr]
  have hlen' : ((sampleFlow env.ops m batch (.child k 1) n).map (fun p => (p.1, t.val p.1 data, env.ops.logProb m p.1))).length = n := by simp [hc]
  have := nfScan_sweep t data (env.ops.logProb m) env.rng ((sampleFlow env.ops m batch (.child k 1) n).map (fun p => (p.1, t.val p.1 data, env.ops.logProb m p.1)))
    (by intro p hp; rw [List.mem_map] at hp; obtain ⟨q, -, rfl⟩ := hp; exact ⟨rfl, rfl⟩) (.child k 0) ⟨x, t.val x data, env.ops.logProb m x⟩ ⟨rfl, rfl⟩ j (by rw [hlen']; exact hj)
  rw [this]
  have gen : ∀ (A : List (Pos ℝ d × ℝ × ℝ)) (n' : ℕ) (w : ℕ → Pos ℝ d), A.length = n' → (∀ i (h : i < A.length), A[i].1 = w i) →
      sweepAt (flowStep t data (env.ops.logProb m)) (j + 1) A.length x (fun i => A[i].1) (fun i => env.rng.uniform (stepKey (.child k 0) i)) =
      sweepAt (flowStep t data (env.ops.logProb m)) (j + 1) n' x (fun i : Fin n' => w i) (fun i : Fin n' => env.rng.uniform (stepKey (.child k 0) i)) := by
    intro A n' w h hw
    subst h
    congr 1
    funext i
    exact hw i i.2
  rw [gen _ n (flowProposal env.ops m batch (.child k 1) n) hlen']
  intro i hi
  have hi' : i < (sampleFlow env.ops m batch (.child k 1) n).length := by simpa using hi
  simp [flowProposal, hi']

variable {past : MeasurableSpace Ω} {sig : Key → MeasurableSpace Ω} [mΩ : MeasurableSpace Ω] {P : Measure Ω} [IsProbabilityMeasure P] {env : Ω → Env ℝ D d M O} {T : Key → Prop}

theorem stepKey_injective (k : Key) : Function.Injective (stepKey k) := by
  intro i j h
  by_contra hij
  exact C29_steps_disjoint k (stepKey k i) i j hij ⟨.refl, by rw [h]; exact .refl⟩

/-- Draws with different keys are independent. -/
theorem Spec.IdealOn.keys_indep (h : IdealOn T past sig P env) {ι : Type} {B : Type} [MeasurableSpace B] (key : ι → Key) (hi : Function.Injective key)
    (f : ι → Ω → B) (hf : ∀ i, Measurable[sig (key i)] (f i)) : iIndepFun f P := by
  have h1 : iIndep ((fun o : Option Key => o.elim past sig) ∘ fun i => some (key i)) P :=
    h.indep.precomp (fun a b hab => hi (by simpa using hab))
  exact iIndep_of_iIndep_of_le h1 (fun i => (hf i).comap_le)

theorem uniforms_law (h : IdealOn T past sig P env) (k : Key) (hT : ∀ a, Desc k a → T a) (n : ℕ) :
    Measurable[info past sig (descSet k)] (fun ω (i : Fin n) => (env ω).rng.uniform (stepKey k i)) ∧
    P.map (fun ω (i : Fin n) => (env ω).rng.uniform (stepKey k i)) = Measure.pi (fun _ => unif) := by
  have hT' : ∀ i, T (stepKey k i) := fun i => hT _ (.child 1 (desc_carryKey k i))
  have hm : ∀ i, Measurable[info past sig (descSet k)] (fun ω => (env ω).rng.uniform (stepKey k i)) := fun i =>
    (h.uniform_meas _ (hT' i)).mono (sig_le_info (mem_descSet (.child 1 (desc_carryKey k i)))) le_rfl
  refine ⟨@measurable_pi_lambda _ _ _ (info past sig (descSet k)) _ _ fun i => hm i, ?_⟩
  have hind := h.keys_indep (fun i : Fin n => stepKey k i) (fun a b hab => Fin.ext (stepKey_injective k hab)) (fun i ω => (env ω).rng.uniform (stepKey k i))
    (fun i => h.uniform_meas _ (hT' i))
  have hmm : ∀ i : Fin n, AEMeasurable (fun ω => (env ω).rng.uniform (stepKey k i)) P := fun i => ((h.uniform_meas (stepKey k i) (hT' i)).mono (h.sig_le _) le_rfl).aemeasurable
  rw [(iIndepFun_iff_map_fun_eq_pi_map hmm).1 hind]
  simp only [h.uniform_law _ (hT' _)]

theorem flowBatches_getD (ops : FlowOps ℝ d M O) (hl : ops.Lawful) (m : M) (s nb : ℕ) (k : Key) (hs : 0 < s) (i : ℕ) (hi : i < nb * s) :
    (flowBatches ops m s nb k).flatten.getD i 0 = (ops.sample m (stepKey k (i / s)) s).getD (i % s) 0 := by
  induction nb generalizing k i with
  | zero => simp at hi
  | succ nb ih =>
    have hlen : (ops.sample m (.child k 1) s).length = s := hl m _ s
    simp only [flowBatches, split, List.flatten_cons]
    by_cases h : i < s
    · rw [List.getD, List.getElem?_append_left (by omega), Nat.div_eq_of_lt h, Nat.mod_eq_of_lt h]; rfl
    · have h' : s ≤ i := by omega
      rw [List.getD, List.getElem?_append_right (by omega), hlen, ← List.getD, ih _ _ (by rw [Nat.add_mul] at hi; omega), stepKey_child]
      obtain ⟨i', rfl⟩ := Nat.exists_eq_add_of_le h'
      rw [Nat.add_sub_cancel_left, Nat.add_div_left _ hs, Nat.add_mod_left]

theorem proposals_law (h : IdealOn T past sig P env) (m : M) (q : Measure (Pos ℝ d)) [IsProbabilityMeasure q] (lnf : Pos ℝ d → ℝ) (hf : IdealFlowOn T P sig env m q lnf)
    (batch : ℕ) (hb : 0 < batch) (k : Key) (hT : ∀ a, Desc k a → T a) (n : ℕ) :
    Measurable[info past sig (descSet k)] (fun ω (i : Fin n) => flowProposal (env ω).ops m batch k n i) ∧
    P.map (fun ω (i : Fin n) => flowProposal (env ω).ops m batch k n i) = Measure.pi (fun _ => q) := by
  have hT' : ∀ i, T (stepKey k i) := fun i => hT _ (.child 1 (desc_carryKey k i))
  by_cases hbn : batch < n
  · set nb := ceilDiv' n batch with hnb
    set s := ceilDiv' n nb with hsd
    have hn : 0 < n := by omega
    have h1 : 0 < nb := ceilDiv'_pos n batch hb hn
    have h2 : n ≤ s * nb := ceilDiv'_mul_ge n nb h1
    have hs : 0 < s := ceilDiv'_pos n nb h1 hn
    have e : ∀ ω (i : Fin n), flowProposal (env ω).ops m batch k n i = ((env ω).ops.sample m (stepKey k (i / s)) s).getD (i % s) 0 := by
      intro ω i
      have hi : i.1 < nb * s := by have := i.2; rw [Nat.mul_comm]; omega
      rw [← flowBatches_getD _ (hf.lawful ω) m s nb k hs i hi]
      simp only [flowProposal, sampleFlow, if_pos hbn]
      rw [← hnb, ← hsd, ← List.map_flatten, ← List.map_take, List.map_map, show ((fun x : Pos ℝ d × ℝ => x.1) ∘ fun x => (x, (env ω).ops.logProb m x)) = id from rfl, List.map_id]
      simp [List.getD, List.getElem?_take, i.2]
    simp only [e]
    have hrow : ∀ (b : ℕ) (r : Fin s), Measurable[sig (stepKey k b)] (fun ω => ((env ω).ops.sample m (stepKey k b) s).getD r 0) := fun b r =>
      (measurable_pi_apply r).comp (hf.rows_meas (stepKey k b) (hT' b) s)
    have hrow' : ∀ (b : ℕ) (r : Fin s), Measurable (fun ω => ((env ω).ops.sample m (stepKey k b) s).getD r 0) := fun b r => (hrow b r).mono (h.sig_le _) le_rfl
    have hrl : ∀ (b : ℕ) (r : Fin s), P.map (fun ω => ((env ω).ops.sample m (stepKey k b) s).getD r 0) = q := by
      intro b r
      have : (fun ω => ((env ω).ops.sample m (stepKey k b) s).getD r 0) = (fun v : Fin s → Pos ℝ d => v r) ∘ fun ω (i : Fin s) => ((env ω).ops.sample m (stepKey k b) s).getD i 0 := rfl
      rw [this, ← Measure.map_map (measurable_pi_apply r) ((hf.rows_meas _ (hT' b) _).mono (h.sig_le _) le_rfl), hf.rows_law _ (hT' b)]
      exact (measurePreserving_eval (fun _ : Fin s => q) r).map_eq
    have hind : iIndepFun (fun (p : ℕ × Fin s) ω => ((env ω).ops.sample m (stepKey k p.1) s).getD p.2 0) P := by
      refine iIndepFun_uncurry' (X := fun (b : ℕ) (r : Fin s) ω => ((env ω).ops.sample m (stepKey k b) s).getD r 0) hrow' ?_ ?_
      · exact h.keys_indep (stepKey k) (stepKey_injective k) _ (fun b => hf.rows_meas (stepKey k b) (hT' b) s)
      · intro b
        rw [iIndepFun_iff_map_fun_eq_pi_map (fun r => (hrow' b r).aemeasurable), hf.rows_law _ (hT' b)]
        simp only [hrl]
    have hidx : Function.Injective (fun i : Fin n => ((i.1 / s, ⟨i.1 % s, Nat.mod_lt _ hs⟩) : ℕ × Fin s)) := by
      intro a b hab
      simp only [Prod.mk.injEq, Fin.mk.injEq] at hab
      refine Fin.ext ?_
      rw [← Nat.div_add_mod a.1 s, ← Nat.div_add_mod b.1 s, hab.1, hab.2]
    have hind2 := hind.precomp hidx
    refine ⟨@measurable_pi_lambda _ _ _ (info past sig (descSet k)) _ _ fun i => (hrow _ ⟨i.1 % s, Nat.mod_lt _ hs⟩).mono (sig_le_info (mem_descSet (.child 1 (desc_carryKey k _)))) le_rfl, ?_⟩
    have := (iIndepFun_iff_map_fun_eq_pi_map (fun i => (hrow' _ _).aemeasurable)).1 hind2
    refine this.trans (congrArg Measure.pi (funext fun i => hrl _ _))
  · have e : ∀ ω (i : Fin n), flowProposal (env ω).ops m batch k n i = ((env ω).ops.sample m k n).getD i 0 := by
      intro ω i
      simp only [flowProposal, sampleFlow, if_neg hbn]
      rw [List.map_map, show ((fun x : Pos ℝ d × ℝ => x.1) ∘ fun x => (x, (env ω).ops.logProb m x)) = id from rfl, List.map_id]
    simp only [e]
    exact ⟨(hf.rows_meas k (hT k .refl) n).mono (sig_le_info (mem_descSet .refl)) le_rfl, hf.rows_law k (hT k .refl) n⟩

/-- The sweep in law, for any accept/reject rule and any start. -/
theorem sweep_iter (h : IdealOn T past sig P env) (m : M) (q : Measure (Pos ℝ d)) [IsProbabilityMeasure q] (lnf : Pos ℝ d → ℝ)
    (hf : IdealFlowOn T P sig env m q lnf) (batch : ℕ) (hb : 0 < batch) (step : Pos ℝ d × ℝ → Pos ℝ d → Pos ℝ d) (hsm : Measurable (fun p : Pos ℝ d × (Pos ℝ d × ℝ) => step p.2 p.1))
    (μ : Measure (Pos ℝ d)) [IsProbabilityMeasure μ] (n : ℕ) (k : Key) (hT : ∀ a, Desc k a → T a)
    (S : Set (Option Key)) (hS : Disjoint S (descSet k)) (X : Ω → Pos ℝ d) (hX : Measurable[info past sig S] X) (hlaw : P.map X = μ) (j : ℕ) (hj : j ≤ n) :
    P.map (fun ω => sweepAt step j n (X ω) (fun i : Fin n => flowProposal (env ω).ops m batch (.child k 1) n i)
        (fun i : Fin n => (env ω).rng.uniform (stepKey (.child k 0) i))) = (stepLaw (q.prod unif) step)^[j] μ ∧
    Measurable[info past sig (S ∪ descSet k)] (fun ω => sweepAt step j n (X ω) (fun i : Fin n => flowProposal (env ω).ops m batch (.child k 1) n i)
        (fun i : Fin n => (env ω).rng.uniform (stepKey (.child k 0) i))) := by
  obtain ⟨vm, vl⟩ := proposals_law h m q lnf hf batch hb (.child k 1) (fun a ha => hT a (desc_trans (.child 1 .refl) ha)) n
  obtain ⟨um, ul⟩ := uniforms_law h (.child k 0) (fun a ha => hT a (desc_trans (.child 0 .refl) ha)) n
  have vu := h.joint (descSet_disjoint (by decide)) vm um
  have vum : Measurable[info past sig (descSet k)] (fun ω => ((fun i : Fin n => flowProposal (env ω).ops m batch (.child k 1) n i),
      (fun i : Fin n => (env ω).rng.uniform (stepKey (.child k 0) i)))) :=
    (vm.mono (info_mono descSet_child) le_rfl).prodMk (um.mono (info_mono descSet_child) le_rfl)
  have hjt := h.joint hS hX vum
  rw [vu, vl, ul, hlaw] at hjt
  have hmeas := sweepAt_measurable step hsm j n
  constructor
  · have e : (fun ω => sweepAt step j n (X ω) (fun i : Fin n => flowProposal (env ω).ops m batch (.child k 1) n i)
        (fun i : Fin n => (env ω).rng.uniform (stepKey (.child k 0) i))) =
        (fun p : Pos ℝ d × ((Fin n → Pos ℝ d) × (Fin n → ℝ)) => sweepAt step j n p.1 p.2.1 p.2.2) ∘
          fun ω => (X ω, ((fun i : Fin n => flowProposal (env ω).ops m batch (.child k 1) n i), (fun i : Fin n => (env ω).rng.uniform (stepKey (.child k 0) i)))) := rfl
    rw [e, ← Measure.map_map hmeas ((hX.mono (h.info_le _) le_rfl).prodMk (vum.mono (h.info_le _) le_rfl)), hjt]
    exact sweepAt_iter _ hsm μ q unif j n hj
  · exact hmeas.comp ((hX.mono (info_mono Set.subset_union_left) le_rfl).prodMk (vum.mono (info_mono Set.subset_union_right) le_rfl))

/-- The sweep in law, for any accept/reject rule that leaves `μ` invariant. -/
theorem sweep_law_step (h : IdealOn T past sig P env) (m : M) (q : Measure (Pos ℝ d)) [IsProbabilityMeasure q] (lnf : Pos ℝ d → ℝ)
    (hf : IdealFlowOn T P sig env m q lnf) (batch : ℕ) (hb : 0 < batch) (step : Pos ℝ d × ℝ → Pos ℝ d → Pos ℝ d) (hsm : Measurable (fun p : Pos ℝ d × (Pos ℝ d × ℝ) => step p.2 p.1))
    (μ : Measure (Pos ℝ d)) [IsProbabilityMeasure μ] (hinv : Invariant μ (q.prod unif) step) (n : ℕ) (k : Key) (hT : ∀ a, Desc k a → T a)
    (S : Set (Option Key)) (hS : Disjoint S (descSet k)) (X : Ω → Pos ℝ d) (hX : Measurable[info past sig S] X) (hlaw : P.map X = μ) (j : ℕ) :
    P.map (fun ω => sweepAt step j n (X ω) (fun i : Fin n => flowProposal (env ω).ops m batch (.child k 1) n i)
        (fun i : Fin n => (env ω).rng.uniform (stepKey (.child k 0) i))) = μ ∧
    Measurable[info past sig (S ∪ descSet k)] (fun ω => sweepAt step j n (X ω) (fun i : Fin n => flowProposal (env ω).ops m batch (.child k 1) n i)
        (fun i : Fin n => (env ω).rng.uniform (stepKey (.child k 0) i))) := by
  obtain ⟨vm, vl⟩ := proposals_law h m q lnf hf batch hb (.child k 1) (fun a ha => hT a (desc_trans (.child 1 .refl) ha)) n
  obtain ⟨um, ul⟩ := uniforms_law h (.child k 0) (fun a ha => hT a (desc_trans (.child 0 .refl) ha)) n
  have vu := h.joint (descSet_disjoint (by decide)) vm um
  have vum : Measurable[info past sig (descSet k)] (fun ω => ((fun i : Fin n => flowProposal (env ω).ops m batch (.child k 1) n i),
      (fun i : Fin n => (env ω).rng.uniform (stepKey (.child k 0) i)))) :=
    (vm.mono (info_mono descSet_child) le_rfl).prodMk (um.mono (info_mono descSet_child) le_rfl)
  have hj := h.joint hS hX vum
  rw [vu, vl, ul, hlaw] at hj
  have hmeas := sweepAt_measurable step hsm j n
  constructor
  · have e : (fun ω => sweepAt step j n (X ω) (fun i : Fin n => flowProposal (env ω).ops m batch (.child k 1) n i)
        (fun i : Fin n => (env ω).rng.uniform (stepKey (.child k 0) i))) =
        (fun p : Pos ℝ d × ((Fin n → Pos ℝ d) × (Fin n → ℝ)) => sweepAt step j n p.1 p.2.1 p.2.2) ∘
          fun ω => (X ω, ((fun i : Fin n => flowProposal (env ω).ops m batch (.child k 1) n i), (fun i : Fin n => (env ω).rng.uniform (stepKey (.child k 0) i)))) := rfl
    rw [e, ← Measure.map_map hmeas ((hX.mono (h.info_le _) le_rfl).prodMk (vum.mono (h.info_le _) le_rfl)), hj]
    exact sweepAt_law _ hsm μ q unif hinv j n
  · exact hmeas.comp ((hX.mono (info_mono Set.subset_union_left) le_rfl).prodMk (vum.mono (info_mono Set.subset_union_right) le_rfl))

/-- The sweep in law. -/
theorem sweep_law (h : IdealOn T past sig P env) (m : M) (q : Measure (Pos ℝ d)) [IsProbabilityMeasure q] (lnf : Pos ℝ d → ℝ) (hlnf : Measurable lnf)
    (hf : IdealFlowOn T P sig env m q lnf) (batch : ℕ) (hb : 0 < batch) (t : Target ℝ D d) (data : Data D)
    (ht : Measurable (fun x => t.val x data)) (μ : Measure (Pos ℝ d)) [IsProbabilityMeasure μ] (hμ : SamplesFrom μ (fun x => t.val x data)) (n : ℕ) (k : Key) (hT : ∀ a, Desc k a → T a)
    (S : Set (Option Key)) (hS : Disjoint S (descSet k)) (X : Ω → Pos ℝ d) (hX : Measurable[info past sig S] X) (hlaw : P.map X = μ) (j : ℕ) :
    P.map (fun ω => sweepAt (flowStep t data lnf) j n (X ω) (fun i : Fin n => flowProposal (env ω).ops m batch (.child k 1) n i)
        (fun i : Fin n => (env ω).rng.uniform (stepKey (.child k 0) i))) = μ ∧
    Measurable[info past sig (S ∪ descSet k)] (fun ω => sweepAt (flowStep t data lnf) j n (X ω) (fun i : Fin n => flowProposal (env ω).ops m batch (.child k 1) n i)
        (fun i : Fin n => (env ω).rng.uniform (stepKey (.child k 0) i))) := by
  refine sweep_law_step h m q lnf hf batch hb _ (flowStep_measurable t data lnf ht hlnf) μ ?_ n k hT S hS X hX hlaw j
  have hC := C26_flow_invariant t data ht lnf hlnf q hf.density
  obtain ⟨Z, rfl⟩ := hμ
  haveI : SFinite (targetMeasure (fun x => t.val x data)) := by unfold targetMeasure; infer_instance
  exact hC.smul Z

/-- **C26 / C28.** A sweep of `n` flow proposals (`TakeGroupSteps`), whatever the proposal batch size, whose start has the target distribution and is independent of the
draws: the call succeeds, and every one of its `n` rows has the target distribution — provided the flow's `log_prob` is, up to a constant, the log-density of its samples.
(`IgnoresNSteps`: the log-density ignores the `"n_steps"` entry which the strategy adds to `data`.) -/
theorem C26_sweep_rows (h : IdealDraws past sig P env) (m : M) (q : Measure (Pos ℝ d)) [IsProbabilityMeasure q] (lnf : Pos ℝ d → ℝ) (hlnf : Measurable lnf)
    (hf : IdealFlow P sig env m q lnf) (batch : ℕ) (hb : 0 < batch) (t : Target ℝ D d) (hn : IgnoresNSteps t) (data : Data D)
    (ht : Measurable (fun x => t.val x data)) (μ : Measure (Pos ℝ d)) [IsProbabilityMeasure μ] (hμ : SamplesFrom μ (fun x => t.val x data)) (n : ℕ) (k : Key)
    (X : Ω → Pos ℝ d) (hX : Measurable[past] X) (hlaw : P.map X = μ) :
    ∃ rows : Ω → List (StepOut ℝ d), (∀ ω, groupSample (env ω) m batch t data n k (X ω) = .ok (rows ω) ∧ (rows ω).length = n) ∧
      ∀ j, j < n → ∃ Y : Ω → Pos ℝ d, (∀ ω, ((rows ω)[j]?).map (·.pos) = some (Y ω)) ∧ Measurable Y ∧ P.map Y = μ := by
  have hS : Disjoint ({none} : Set (Option Key)) (descSet k) := by
    rw [Set.disjoint_left]; rintro o ho ⟨a, rfl, _⟩; simp at ho
  choose rows hrows using fun ω => group_sweep (env ω) (hf.lawful ω) m batch hb t hn data n k (X ω)
  refine ⟨rows, fun ω => ⟨(hrows ω).1, (hrows ω).2.1⟩, ?_⟩
  intro j hj
  have := sweep_law h m q lnf hlnf hf batch hb t data ht μ hμ n k (fun _ _ => trivial) {none} hS X (hX.mono (past_le_info (by simp)) le_rfl) hlaw (j + 1)
  refine ⟨_, fun ω => ?_, this.2.mono (h.info_le _) le_rfl, this.1⟩
  rw [(hrows ω).2.2 j hj, hf.logProb ω]

end FlowMC
