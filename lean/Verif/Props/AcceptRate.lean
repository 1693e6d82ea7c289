import Verif.Lemmas.OutChain
import Verif.Spec.Acceptance
import Verif.Props.ChainAverages
/-
C104: the acceptance flags recorded in one long `TakeSteps` call average to the stationary acceptance rate.
-/
open MeasureTheory ProbabilityTheory Filter
open scoped ENNReal Topology
set_option linter.unusedSectionVars false
namespace FlowMC
open Spec

variable {Ω D M O : Type} {d : ℕ}
variable {T : Key → Prop} {past : MeasurableSpace Ω} {sig : Key → MeasurableSpace Ω} [mΩ : MeasurableSpace Ω] {P : Measure Ω} [IsProbabilityMeasure P] {env : Ω → Env ℝ D d M O}

/-! ### states driven by the keys of a serial call -/

/-- The state after `j` steps driven by the draws of the keys of a serial call. -/
def keyIter {A : Type} (rng : Rng ℝ) (step : Pos ℝ d × ℝ → A → A) : ℕ → Key → A → A
  | 0, _, x => x
  | j + 1, k, x => keyIter rng step j (.child k 0) (step (rng.normal (.child (.child k 1) 0) d, rng.uniform (.child (.child k 1) 1)) x)

theorem keyIter_law {A : Type} [MeasurableSpace A] (h : IdealOn T past sig P env) (step : Pos ℝ d × ℝ → A → A) (hsm : Measurable fun p : A × (Pos ℝ d × ℝ) => step p.2 p.1)
    (j : ℕ) (k : Key) (hT : ∀ a, Desc k a → T a) (S : Set (Option Key)) (hS : Disjoint S (descSet k)) (X : Ω → A) (hX : Measurable[info past sig S] X) :
    P.map (fun ω => keyIter (env ω).rng step j k (X ω)) = (stepLaw (noise d) step)^[j] (P.map X) ∧ Measurable[info past sig (S ∪ descSet k)] (fun ω => keyIter (env ω).rng step j k (X ω)) := by
  induction j generalizing k S X with
  | zero => exact ⟨rfl, hX.mono (info_mono Set.subset_union_left) le_rfl⟩
  | succ j ih =>
    obtain ⟨nm, nl⟩ := noise_law h (.child k 1) (fun a ha => hT a (desc_trans (.child 1 .refl) ha))
    have hd : Disjoint S (descSet (.child k 1)) := hS.mono_right descSet_child
    have hX' : Measurable[info past sig (S ∪ descSet (.child k 1))] (fun ω => step ((env ω).rng.normal (.child (.child k 1) 0) d, (env ω).rng.uniform (.child (.child k 1) 1)) (X ω)) :=
      hsm.comp ((hX.mono (info_mono Set.subset_union_left) le_rfl).prodMk (nm.mono (info_mono Set.subset_union_right) le_rfl))
    have := ih (.child k 0) (fun a ha => hT a (desc_trans (.child 0 .refl) ha)) (S ∪ descSet (.child k 1))
      (Set.disjoint_union_left.2 ⟨hS.mono_right descSet_child, descSet_disjoint (by decide)⟩) _ hX'
    rw [h.step_law hd hX nm rfl nl hsm] at this
    refine ⟨this.1, this.2.mono (info_mono ?_) le_rfl⟩
    exact Set.union_subset (Set.union_subset Set.subset_union_left (descSet_child.trans Set.subset_union_right)) (descSet_child.trans Set.subset_union_right)

theorem keyIter_onSnd {A W : Type} (rng : Rng ℝ) (step : Pos ℝ d × ℝ → A → A) (j : ℕ) (k : Key) (y : W) (x : A) : keyIter rng (onSnd step) j k (y, x) = (y, keyIter rng step j k x) := by
  induction j generalizing k x with
  | zero => rfl
  | succ j ih => exact ih _ _

theorem keyIter_pair {A : Type} [MeasurableSpace A] (h : IdealOn T past sig P env) (step : Pos ℝ d × ℝ → A → A) (hsm : Measurable fun p : A × (Pos ℝ d × ℝ) => step p.2 p.1)
    (i j : ℕ) (k : Key) (hT : ∀ a, Desc k a → T a) (S : Set (Option Key)) (hS : Disjoint S (descSet k)) (X : Ω → A) (hX : Measurable[info past sig S] X) :
    P.map (fun ω => (keyIter (env ω).rng step i k (X ω), keyIter (env ω).rng step (i + j) k (X ω))) =
      (stepLaw (noise d) (onSnd step))^[j] (P.map fun ω => (keyIter (env ω).rng step i k (X ω), keyIter (env ω).rng step i k (X ω))) := by
  induction i generalizing k S X with
  | zero =>
    rw [Nat.zero_add]
    have := (keyIter_law h (onSnd (W := A) step) (onSnd_measurable hsm) j k hT S hS (fun ω => (X ω, X ω)) (hX.prodMk hX)).1
    simp only [keyIter_onSnd] at this
    exact this
  | succ i ih =>
    obtain ⟨nm, nl⟩ := noise_law h (.child k 1) (fun a ha => hT a (desc_trans (.child 1 .refl) ha))
    rw [show i + 1 + j = (i + j) + 1 by ring]
    have hX' : Measurable[info past sig (S ∪ descSet (.child k 1))] (fun ω => step ((env ω).rng.normal (.child (.child k 1) 0) d, (env ω).rng.uniform (.child (.child k 1) 1)) (X ω)) :=
      hsm.comp ((hX.mono (info_mono Set.subset_union_left) le_rfl).prodMk (nm.mono (info_mono Set.subset_union_right) le_rfl))
    exact ih (.child k 0) (fun a ha => hT a (desc_trans (.child 0 .refl) ha)) (S ∪ descSet (.child k 1))
      (Set.disjoint_union_left.2 ⟨hS.mono_right descSet_child, descSet_disjoint (by decide)⟩) _ hX'

/-! ### the flags -/

/-- Whether a step of a local kernel is accepted. -/
noncomputable def localAcc (kr : KernelRes ℝ d M) (t : Target ℝ D d) (data : Data D) (ω : Pos ℝ d × ℝ) (x : Pos ℝ d) : Bool :=
  match kr with
  | .grw s => (grwStep s t data ω.1 ω.2 x (t.val x data)).acc
  | .mala s => (malaStep s t data ω.1 ω.2 x (t.val x data)).acc
  | .hmc s n m L => (hmcStep s n m L t data ω.1 ω.2 x (t.val x data)).acc
  | .nf _ _ => false

theorem measurable_lt_bool {A : Type} [MeasurableSpace A] {f g : A → ℝ} (hf : Measurable f) (hg : Measurable g) : Measurable fun a => decide (f a < g a) :=
  measurable_to_bool (by
    have : (fun a => decide (f a < g a)) ⁻¹' {true} = {a | f a < g a} := by ext a; simp
    rw [this]; exact measurableSet_lt hf hg)

theorem localAcc_measurable (kr : KernelRes ℝ d M) (t : Target ℝ D d) (data : Data D) (ht : Measurable (fun x => t.val x data)) (hg : Measurable (fun x => t.grad x data)) :
    Measurable (fun p : Pos ℝ d × (Pos ℝ d × ℝ) => localAcc kr t data p.2 p.1) := by
  cases kr with
  | grw s =>
    have hgm : Measurable (fun z : (Fin d → ℝ) × ((Fin d → ℝ) × ℝ) => grwProposal s z.1 z.2.1) :=
      grwProposal_measurable.comp (by fun_prop : Measurable fun z : (Fin d → ℝ) × ((Fin d → ℝ) × ℝ) => (z.1, z.2.1))
    exact measurable_lt_bool (Real.measurable_log.comp (measurable_snd.comp measurable_snd)) ((ht.comp hgm).sub (ht.comp measurable_fst))
  | mala s =>
    have hgm : Measurable (fun p : Pos ℝ d × ((Fin d → ℝ) × ℝ) => malaProposal s p.1 (t.grad p.1 data) p.2.1) :=
      (malaProposal_measurable s t data hg).comp (by fun_prop : Measurable fun p : Pos ℝ d × ((Fin d → ℝ) × ℝ) => (p.1, p.2.1))
    exact measurable_lt_bool (Real.measurable_log.comp (measurable_snd.comp measurable_snd)) ((malaLogRatio_measurable s t data ht hg).comp (measurable_fst.prodMk hgm))
  | hmc s n m L =>
    have hS : Measurable (fun p : Pos ℝ d × ((Fin d → ℝ) × ℝ) => ((p.1, hmcMomentum L p.2.1) : Pos ℝ d × Pos ℝ d)) :=
      measurable_fst.prodMk ((hmcMomentum_measurable L).comp (by fun_prop))
    have hΦ := (leapfrog_measurable s n m t data hg).comp hS
    exact measurable_lt_bool (Real.measurable_log.comp (measurable_snd.comp measurable_snd)) (((hmcEnergy_measurable m t data ht).comp hS).sub ((hmcEnergy_measurable m t data ht).comp hΦ))
  | nf _ _ => exact measurable_const

theorem local_kernel_acc (kr : KernelRes ℝ d M) (t : Target ℝ D d) (data : Data D) (rng : Rng ℝ) (K : LocalKernel ℝ D d) (hK : kr.local? rng = some K) (k : Key) (x : Pos ℝ d) :
    (K k x (t.val x data) t data).acc = localAcc kr t data (rng.normal (.child k 0) d, rng.uniform (.child k 1)) x := by
  cases kr with
  | nf _ _ => simp [KernelRes.local?] at hK
  | _ => simp only [KernelRes.local?, Option.some.injEq] at hK; subst hK; rfl

/-- A row of a serial chain: position and flag. -/
theorem serial_out (kr : KernelRes ℝ d M) (t : Target ℝ D d) (data : Data D) (rng : Rng ℝ) (K : LocalKernel ℝ D d) (hK : kr.local? rng = some K) (j : ℕ) (k : Key) (s : Pos ℝ d × Bool) :
    let o := (localBody K t data (iterState (localBody K t data) j (k, s.1, t.val s.1 data))).2
    (o.pos, o.acc) = keyIter rng (withOut (localStep kr t data) (localAcc kr t data)) (j + 1) k s := by
  have h := fun a x => local_kernel_eq kr t data rng K hK a x
  have ha := fun a x => local_kernel_acc kr t data rng K hK a x
  induction j generalizing k s with
  | zero => simp only [iterState, localBody, split, keyIter, withOut, (h _ _).1, ha]
  | succ j ih =>
    have hbody : (localBody K t data (k, s.1, t.val s.1 data)).1 = (.child k 0, localStep kr t data (rng.normal (.child (.child k 1) 0) d, rng.uniform (.child (.child k 1) 1)) s.1,
        t.val (localStep kr t data (rng.normal (.child (.child k 1) 0) d, rng.uniform (.child (.child k 1) 1)) s.1) data) := by
      simp only [localBody, split, (h _ _).1, (h _ _).2]
    simp only [iterState, hbody]
    exact ih (.child k 0) (withOut (localStep kr t data) (localAcc kr t data) (rng.normal (.child (.child k 1) 0) d, rng.uniform (.child (.child k 1) 1)) s)

/-- Whether a flow proposal is accepted. -/
noncomputable def flowAcc (t : Target ℝ D d) (data : Data D) (lnf : Pos ℝ d → ℝ) (w : Pos ℝ d × ℝ) (x : Pos ℝ d) : Bool := (nfBody w.2 ⟨x, t.val x data, lnf x⟩ (w.1, t.val w.1 data, lnf w.1)).2.acc

theorem flowAcc_measurable (t : Target ℝ D d) (data : Data D) (lnf : Pos ℝ d → ℝ) (ht : Measurable (fun x => t.val x data)) (hl : Measurable lnf) :
    Measurable (fun p : Pos ℝ d × (Pos ℝ d × ℝ) => flowAcc t data lnf p.2 p.1) :=
  measurable_lt_bool (Real.measurable_log.comp (measurable_snd.comp measurable_snd)) (((ht.comp (by fun_prop)).sub (ht.comp measurable_fst)).sub ((hl.comp (by fun_prop)).sub (hl.comp measurable_fst)))

theorem nfScan_out (t : Target ℝ D d) (data : Data D) (lnf : Pos ℝ d → ℝ) (rng : Rng ℝ) (props : List (Pos ℝ d × ℝ × ℝ))
    (hp : ∀ p ∈ props, p.2.1 = t.val p.1 data ∧ p.2.2 = lnf p.1) (k : Key) (c : NFCarry ℝ d) (hc : c.logp = t.val c.pos data ∧ c.lognf = lnf c.pos) (b : Bool)
    (j : ℕ) (hj : j < props.length) :
    ((nfScan rng k c props)[j]?).map (fun o => (o.pos, o.acc)) =
      some (sweepAt (withOut (flowStep t data lnf) (flowAcc t data lnf)) (j + 1) props.length (c.pos, b) (fun i => props[i].1) (fun i => rng.uniform (stepKey k i))) := by
  induction props generalizing k c j b with
  | nil => simp at hj
  | cons p ps ih =>
    have hp0 := hp p (by simp)
    have hbody : (nfBody (rng.uniform (.child k 1)) c p).2.pos = flowStep t data lnf (p.1, rng.uniform (stepKey k 0)) c.pos := by
      simp only [flowStep, stepKey, carryKey, nfBody, hp0.1, hp0.2, hc.1, hc.2]
      rfl
    have hacc : (nfBody (rng.uniform (.child k 1)) c p).2.acc = flowAcc t data lnf (p.1, rng.uniform (stepKey k 0)) c.pos := by
      simp only [flowAcc, stepKey, carryKey, nfBody, hp0.1, hp0.2, hc.1, hc.2]
    have hpos : (nfBody (rng.uniform (.child k 1)) c p).1.pos = (nfBody (rng.uniform (.child k 1)) c p).2.pos := rfl
    have hnext : (nfBody (rng.uniform (.child k 1)) c p).1.logp = t.val (nfBody (rng.uniform (.child k 1)) c p).1.pos data ∧
        (nfBody (rng.uniform (.child k 1)) c p).1.lognf = lnf (nfBody (rng.uniform (.child k 1)) c p).1.pos := by
      simp only [nfBody]
      split
      · exact hp0
      · exact hc
    have hscan : nfScan rng k c (p :: ps) = (nfBody (rng.uniform (.child k 1)) c p).2 :: nfScan rng (.child k 0) (nfBody (rng.uniform (.child k 1)) c p).1 ps := rfl
    rw [hscan]
    cases j with
    | zero =>
      simp only [List.getElem?_cons_zero, Option.map_some, hbody, hacc, Option.some.injEq]
      rfl
    | succ j =>
      rw [List.getElem?_cons_succ, ih (fun q hq => hp q (by simp [hq])) _ _ hnext (flowAcc t data lnf (p.1, rng.uniform (stepKey k 0)) c.pos) j (by simpa using hj), hpos, hbody]
      rfl

/-- A row of a sweep of flow proposals: position and flag. -/
theorem group_out (env : Env ℝ D d M O) (hl : env.ops.Lawful) (m : M) (batch : ℕ) (hb : 0 < batch) (t : Target ℝ D d) (hn : IgnoresNSteps t)
    (data : Data D) (n : ℕ) (k : Key) (x : Pos ℝ d) :
    ∃ rows, groupSample env m batch t data n k x = .ok rows ∧ rows.length = n ∧ ∀ j, j < n → (rows[j]?).map (fun o => (o.pos, o.acc)) =
      some (sweepAt (withOut (flowStep t data (env.ops.logProb m)) (flowAcc t data (env.ops.logProb m))) (j + 1) n (x, false) (fun i : Fin n => flowProposal env.ops m batch (.child k 1) n i)
        (fun i : Fin n => env.rng.uniform (stepKey (.child k 0) i))) := by
  obtain ⟨rows, hr, hlen⟩ := groupSample_ok env hl m batch hb t data n k x
  refine ⟨rows, hr, hlen, ?_⟩
  intro j hj
  simp only [groupSample, nfKernel] at hr
  have hb' : ¬ (batch = 0 ∧ 0 < n) := by omega
  rw [if_neg hb'] at hr
  simp only [Except.ok.injEq] at hr
  subst hr
  have hc := C27_count env.ops hl m batch hb (.child k 1) n
  have hlp := C27_target_logprob t { data with nSteps := some n } batch hb ((sampleFlow env.ops m batch (.child k 1) n).map (·.1))
  rw [List.length_map, hc] at hlp
  simp only [split, hlp]
  have hpr : (((sampleFlow env.ops m batch (.child k 1) n).zip (((sampleFlow env.ops m batch (.child k 1) n).map (·.1)).map (fun x => t.val x { data with nSteps := some n }))).map
      (fun pl => (pl.1.1, pl.2, pl.1.2))) = (sampleFlow env.ops m batch (.child k 1) n).map (fun p => (p.1, t.val p.1 data, env.ops.logProb m p.1)) := by
    have hfl := C27_flow_logprob env.ops m batch (.child k 1) n
    generalize sampleFlow env.ops m batch (.child k 1) n = l at hfl
    clear hlen hlp hc
    induction l with
    | nil => rfl
    | cons p ps ih =>
      simp only [List.map_cons, List.zip_cons_cons, ih (fun q hq => hfl q (by simp [hq]))]
      rw [hfl p (by simp), show t.val p.1 { data with nSteps := some n } = t.val p.1 data from hn p.1 data.user (some n) data.nSteps]
  rw [hpr]
  have hlen' : ((sampleFlow env.ops m batch (.child k 1) n).map (fun p => (p.1, t.val p.1 data, env.ops.logProb m p.1))).length = n := by simp [hc]
  have := nfScan_out t data (env.ops.logProb m) env.rng ((sampleFlow env.ops m batch (.child k 1) n).map (fun p => (p.1, t.val p.1 data, env.ops.logProb m p.1)))
    (by intro p hp; rw [List.mem_map] at hp; obtain ⟨q, -, rfl⟩ := hp; exact ⟨rfl, rfl⟩) (.child k 0) ⟨x, t.val x data, env.ops.logProb m x⟩ ⟨rfl, rfl⟩ false j (by rw [hlen']; exact hj)
  rw [this]
  have gen : ∀ (A : List (Pos ℝ d × ℝ × ℝ)) (n' : ℕ) (w : ℕ → Pos ℝ d), A.length = n' → (∀ i (h : i < A.length), A[i].1 = w i) →
      sweepAt (withOut (flowStep t data (env.ops.logProb m)) (flowAcc t data (env.ops.logProb m))) (j + 1) A.length (x, false) (fun i => A[i].1) (fun i => env.rng.uniform (stepKey (.child k 0) i)) =
      sweepAt (withOut (flowStep t data (env.ops.logProb m)) (flowAcc t data (env.ops.logProb m))) (j + 1) n' (x, false) (fun i : Fin n' => w i) (fun i : Fin n' => env.rng.uniform (stepKey (.child k 0) i)) := by
    intro A n' w h hw
    subst h
    congr 1
    funext i
    exact hw i i.2
  rw [gen _ n (flowProposal env.ops m batch (.child k 1) n) hlen']
  intro i hi
  have hi' : i < (sampleFlow env.ops m batch (.child k 1) n).length := by simpa using hi
  simp [flowProposal, hi']

/-! ### rows of a call -/

/-- The positions and flags that a call of the stepper `s` computes for one chain are successive states of the chain with the step `step` and the report `out`, driven by noise with distribution `ν`. -/
def StepperOuts (T : Key → Prop) (past : MeasurableSpace Ω) (sig : Key → MeasurableSpace Ω) [mΩ : MeasurableSpace Ω] (P : Measure Ω) (env : Ω → Env ℝ D d M O)
    (r0 : String → Option (Resource ℝ D d M O)) (data : Data D) (s : TakeSteps) (ν : Measure (Pos ℝ d × ℝ)) (step : Pos ℝ d × ℝ → Pos ℝ d → Pos ℝ d) (out : Pos ℝ d × ℝ → Pos ℝ d → Bool) : Prop :=
  ∃ kr lr, r0 s.kernelName = some kr ∧ IsSamplerResource kr ∧ r0 s.logpdfName = some lr ∧ IsSamplerResource lr ∧
    (∀ ω f a x r, s.sampler (env ω) kr lr data = .ok f → f a x = .ok r → r.length = s.nSteps) ∧
    ∀ (a : Key), (∀ b, Desc a b → T b) → ∀ (S : Set (Option Key)), Disjoint S (descSet a) → ∀ (X : Ω → Pos ℝ d), Measurable[info past sig S] X →
      ∀ (r : Ω → List (StepOut ℝ d)), (∀ ω, ∃ f, s.sampler (env ω) kr lr data = .ok f ∧ f a (X ω) = .ok (r ω)) →
        ∃ Z : ℕ → Ω → Pos ℝ d × Bool, ChainRows P ν (withOut step out) ((P.map X).map fun x => (x, false)) s.nSteps Z ∧ ∀ j < s.nSteps, ∀ ω, ((r ω)[j]?).map (fun o => (o.pos, o.acc)) = some (Z (j + 1) ω)

theorem serial_stepperOuts (h : IdealOn T past sig P env) (r0 : String → Option (Resource ℝ D d M O)) (data : Data D) (s : TakeSteps) (hk : s.kind = .serial) (kr : KernelRes ℝ d M)
    (hx : ExactSettings kr) (hkr : r0 s.kernelName = some (.kernel kr)) (lr : Resource ℝ D d M O) (hlr : r0 s.logpdfName = some lr) (t : Target ℝ D d) (ht : lr.target? = some t)
    (hm : Measurable (fun x => t.val x data)) (hg : Measurable (fun x => t.grad x data)) :
    StepperOuts T past sig P env r0 data s (noise d) (localStep kr t data) (localAcc kr t data) := by
  have hK : ∃ K : Ω → LocalKernel ℝ D d, ∀ ω, kr.local? (env ω).rng = some (K ω) := by
    cases kr with
    | nf _ _ => exact hx.elim
    | grw s => exact ⟨_, fun _ => rfl⟩
    | mala s => exact ⟨_, fun _ => rfl⟩
    | hmc _ _ _ _ => exact ⟨_, fun _ => rfl⟩
  obtain ⟨K, hK⟩ := hK
  have hrow : ∀ ω f a x r, s.sampler (env ω) (.kernel kr) lr data = .ok f → f a x = .ok r → r = serialSample (K ω) t data s.nSteps a x := by
    intro ω f a x r hf hr
    unfold TakeSteps.sampler at hf
    have hl := hK ω
    rw [ht] at hf
    simp only [hk] at hf
    cases kr with
    | nf _ _ => exact hx.elim
    | _ =>
      simp only [hl, Except.ok.injEq] at hf
      subst hf
      simpa using hr.symm
  refine ⟨_, lr, hkr, trivial, hlr, isSampler_of_target ht, fun ω f a x r hf hr => by rw [hrow ω f a x r hf hr, serialSample_length], ?_⟩
  intro a hT S hS X hX r hr
  have hpad : Measurable fun x : Pos ℝ d => (x, false) := measurable_id.prodMk measurable_const
  have hX' : Measurable[info past sig S] fun ω => (X ω, false) := hpad.comp hX
  have hsm := withOut_measurable (localStep_measurable kr t data hm hg) (localAcc_measurable kr t data hm hg)
  have hl := fun j => keyIter_law h _ hsm j a hT S hS _ hX'
  have e0 : (P.map X).map (fun x => (x, false)) = P.map fun ω => (X ω, false) := Measure.map_map hpad (hX.mono (h.info_le _) le_rfl)
  refine ⟨fun j ω => keyIter (env ω).rng (withOut (localStep kr t data) (localAcc kr t data)) j a (X ω, false), ⟨fun j _ => (hl j).2.mono (h.info_le _) le_rfl, fun j _ => ?_, fun i j _ => ?_⟩, fun j hj ω => ?_⟩
  · rw [e0]; exact (hl j).1
  · exact keyIter_pair h _ hsm i j a hT S hS _ hX'
  · obtain ⟨f, hf, hr⟩ := hr ω
    rw [hrow ω f _ _ _ hf hr, serialSample, scanN_getElem?, if_pos hj, Option.map_some]
    exact congrArg some (serial_out kr t data (env ω).rng (K ω) (hK ω) j a (X ω, false))

theorem group_stepperOuts (h : IdealOn T past sig P env) (r0 : String → Option (Resource ℝ D d M O)) (data : Data D) (s : TakeSteps) (hk : s.kind = .group) (m : M) (b : ℕ) (hb : 0 < b)
    (hkr : r0 s.kernelName = some (.kernel (.nf m b))) (lr : Resource ℝ D d M O) (hlr : r0 s.logpdfName = some lr) (t : Target ℝ D d) (ht : lr.target? = some t) (hn : IgnoresNSteps t)
    (hm : Measurable (fun x => t.val x data)) (q : Measure (Pos ℝ d)) [IsProbabilityMeasure q] (lnf : Pos ℝ d → ℝ) (hlnf : Measurable lnf) (hf : IdealFlowOn T P sig env m q lnf) :
    StepperOuts T past sig P env r0 data s (q.prod unif) (flowStep t data lnf) (flowAcc t data lnf) := by
  have hrow : ∀ ω f a x r, s.sampler (env ω) (.kernel (.nf m b)) lr data = .ok f → f a x = .ok r → groupSample (env ω) m b t data s.nSteps a x = .ok r := by
    intro ω f a x r hf hr
    unfold TakeSteps.sampler at hf
    rw [ht] at hf
    simp only [hk, Except.ok.injEq] at hf
    subst hf
    exact hr
  have hgs := fun ω a x => group_out (env ω) (hf.lawful ω) m b hb t hn data s.nSteps a x
  have hsm := withOut_measurable (flowStep_measurable t data lnf hm hlnf) (flowAcc_measurable t data lnf hm hlnf)
  refine ⟨_, lr, hkr, trivial, hlr, isSampler_of_target ht, fun ω f a x r hf hr => ?_, ?_⟩
  · obtain ⟨r', e, hl, -⟩ := hgs ω a x
    rw [hrow ω f a x r hf hr, Except.ok.injEq] at e
    rw [e, hl]
  intro a hT S hS X hX r hr
  have hXm := hX.mono (h.info_le _) le_rfl
  haveI : IsProbabilityMeasure (P.map X) := Measure.isProbabilityMeasure_map hXm.aemeasurable
  have hpad : Measurable fun x : Pos ℝ d => (x, false) := measurable_id.prodMk measurable_const
  have hX' : Measurable[info past sig S] fun ω => (X ω, false) := hpad.comp hX
  have e0 : (P.map X).map (fun x => (x, false)) = P.map fun ω => (X ω, false) := Measure.map_map hpad hXm
  haveI : IsProbabilityMeasure ((P.map X).map fun x => (x, false)) := Measure.isProbabilityMeasure_map hpad.aemeasurable
  have hdiag : Measurable fun x : Pos ℝ d × Bool => (x, x) := measurable_id.prodMk measurable_id
  obtain ⟨vm, vl⟩ := proposals_law h m q lnf hf b hb (.child a 1) (fun c hc => hT c (desc_trans (.child 1 .refl) hc)) s.nSteps
  obtain ⟨um, ul⟩ := uniforms_law h (.child a 0) (fun c hc => hT c (desc_trans (.child 0 .refl) hc)) s.nSteps
  have vu := h.joint (descSet_disjoint (by decide)) vm um
  have vum : Measurable[info past sig (descSet a)] (fun ω => ((fun i : Fin s.nSteps => flowProposal (env ω).ops m b (.child a 1) s.nSteps i),
      (fun i : Fin s.nSteps => (env ω).rng.uniform (stepKey (.child a 0) i)))) :=
    (vm.mono (info_mono descSet_child) le_rfl).prodMk (um.mono (info_mono descSet_child) le_rfl)
  have hjt := h.joint hS hX' vum
  rw [vu, vl, ul, ← e0] at hjt
  have hall := (hX'.mono (h.info_le _) le_rfl).prodMk (vum.mono (h.info_le _) le_rfl)
  have hlaw : ∀ j ≤ s.nSteps, P.map (fun ω => sweepAt (withOut (flowStep t data lnf) (flowAcc t data lnf)) j s.nSteps (X ω, false) (fun i : Fin s.nSteps => flowProposal (env ω).ops m b (.child a 1) s.nSteps i)
        (fun i : Fin s.nSteps => (env ω).rng.uniform (stepKey (.child a 0) i))) = (stepLaw (q.prod unif) (withOut (flowStep t data lnf) (flowAcc t data lnf)))^[j] ((P.map X).map fun x => (x, false)) := by
    intro j hj
    have := sweepAt_iter _ hsm ((P.map X).map fun x => (x, false)) q unif j s.nSteps hj
    rw [← hjt, Measure.map_map (sweepAt_measurable _ hsm j _) hall] at this
    exact this
  have hmeas : ∀ j, Measurable (fun ω => sweepAt (withOut (flowStep t data lnf) (flowAcc t data lnf)) j s.nSteps (X ω, false) (fun i : Fin s.nSteps => flowProposal (env ω).ops m b (.child a 1) s.nSteps i)
        (fun i : Fin s.nSteps => (env ω).rng.uniform (stepKey (.child a 0) i))) := fun j => (sweepAt_measurable _ hsm j s.nSteps).comp hall
  refine ⟨fun j ω => sweepAt (withOut (flowStep t data lnf) (flowAcc t data lnf)) j s.nSteps (X ω, false) (fun i : Fin s.nSteps => flowProposal (env ω).ops m b (.child a 1) s.nSteps i)
        (fun i : Fin s.nSteps => (env ω).rng.uniform (stepKey (.child a 0) i)), ⟨fun j _ => hmeas j, hlaw, fun i j hij => ?_⟩, fun j hj ω => ?_⟩
  · have hp := sweepAt_pair _ hsm ((P.map X).map fun x => (x, false)) q unif i j s.nSteps hij
    rw [← hjt, Measure.map_map ((sweepAt_measurable _ hsm i _).prodMk (sweepAt_measurable _ hsm (i + j) _)) hall] at hp
    refine hp.trans (congrArg _ ?_)
    rw [← hlaw i (by omega), Measure.map_map hdiag (hmeas i)]
    rfl
  · obtain ⟨r', e, -, hr'⟩ := hgs ω a (X ω)
    obtain ⟨f, hf', hr⟩ := hr ω
    rw [hrow ω f _ _ _ hf' hr, Except.ok.injEq] at e
    rw [e, hr' j hj, hf.logProb ω]

variable [BufNum ℝ]

/-- All flags a stepper records of a known chain in one call. -/
theorem stepper_all_outs {r0 : String → Option (Resource ℝ D d M O)} {i : ℕ} {k0 k : Key} {S : Set (Option Key)} {μ : Measure (Pos ℝ d)} {w : Ω → World ℝ D d M O} {data : Data D}
    (hc : ChainKnown past sig P r0 i k0 k S μ w) (s : TakeSteps) {ν : Measure (Pos ℝ d × ℝ)} {step : Pos ℝ d × ℝ → Pos ℝ d → Pos ℝ d} {out : Pos ℝ d × ℝ → Pos ℝ d → Bool}
    (hs : StepperOuts (Desc k0) past sig P env r0 data s ν step out)
    (w1 : Ω → World ℝ D d M O) (hr : ∀ ω, s.run (env ω) (w ω).key (w ω).xs data (w ω).heap = (.ok ((w1 ω).key, (w1 ω).xs), (w1 ω).heap))
    (n cap cur : ℕ) (hn : 0 < s.nSteps) (hw : ∀ ω, (w ω).xs.length = n) (Pn L A : String) (bP bL bA : Ω → Buffer ℝ) (hpt : ∀ ω, PointsAt (w ω).heap s Pn L A)
    (hrec : ∀ ω, Recorders (w ω).heap n cap Pn L A (bP ω) (bL ω) (bA ω)) (hcur : ∀ ω, (w ω).heap.pos s.ident = cur) (hfit : cur + ceilDiv' s.nSteps s.thinning ≤ cap) :
    0 < s.thinning ∧ ∃ Z : ℕ → Ω → Pos ℝ d × Bool, ChainRows P ν (withOut step out) (μ.map fun x => (x, false)) s.nSteps Z ∧
      ∀ ω, ∃ b, (w1 ω).heap.res A = some (.buffer b) ∧ ∀ j < ceilDiv' s.nSteps s.thinning, b.data.get [i, cur + j] = BufNum.ofBool (Z (j * s.thinning + 1) ω).2 := by
  obtain ⟨kr, lr, hkr, hkr', hlr, hlr', hlen', hs⟩ := hs
  obtain ⟨X, hX, hXm, hXl⟩ := hc.law
  have hok := fun ω => takeSteps_rows (env ω) s _ _ _ _ data _ _ (hr ω)
  have hd : Desc k0 (.child (.child k 1) i) := desc_trans hc.desc (.child i (.child 1 .refl))
  obtain ⟨ω0⟩ : Nonempty Ω := P.nonempty_of_neZero
  have ht := (hok ω0).1
  refine ⟨ht, ?_⟩
  have hrow : ∀ ω, ∃ r, (∃ f, s.sampler (env ω) kr lr data = .ok f ∧ f (.child (.child k 1) i) (X ω) = .ok r) ∧
      ∃ b, (w1 ω).heap.res A = some (.buffer b) ∧ ∀ j < ceilDiv' s.nSteps s.thinning, ∀ v, (r[j * s.thinning]?).map (fun o => BufNum.ofBool o.acc) = some v → b.data.get [i, cur + j] = v := by
    intro ω
    obtain ⟨-, kr', lr', f, rows, h1, h2, h3, h4⟩ := hok ω
    rw [hc.keeps ω _ _ hkr hkr', Option.some.injEq] at h1
    rw [hc.keeps ω _ _ hlr hlr', Option.some.injEq] at h2
    subst h1; subst h2
    have hlens : ∀ r ∈ rows, r.length = s.nSteps := by
      intro r hr
      obtain ⟨⟨a, hl⟩, rfl⟩ := List.mem_iff_get.1 hr
      exact hlen' ω f _ _ _ h3 ((List.forall₂_iff_get.1 h4).2 a (h4.length_eq ▸ hl) hl)
    obtain ⟨ys, h', e, he, -, -⟩ := C19_success (env ω) s (w ω).key (w ω).xs data (w ω).heap cap Pn L A (bP ω) (bL ω) (bA ω) (hpt ω) (by rw [hw]; exact hrec ω)
      (by rw [hcur]; exact hfit) kr lr (hc.keeps ω _ _ hkr hkr') (hc.keeps ω _ _ hlr hlr') f h3 rows h4 hlens ht hn
    rw [hr ω, Prod.mk.injEq] at e
    obtain ⟨b, hb, hcell⟩ := he.acc
    rw [← e.2] at hb
    have hz : ((splitN (.child (w ω).key 1) (w ω).xs.length).zip (w ω).xs)[i]? = some (.child (.child k 1) i, X ω) := by
      rw [zip_splitN_getElem?, show (w ω).xs[i]? = some (X ω) from hX ω, hc.key]; rfl
    have hi := (List.getElem?_eq_some_iff.1 hz).1
    have hi' : i < rows.length := h4.length_eq ▸ hi
    have e1 := (List.forall₂_iff_get.1 h4).2 i hi hi'
    have e0 : ((splitN (.child (w ω).key 1) (w ω).xs.length).zip (w ω).xs).get ⟨i, hi⟩ = (.child (.child k 1) i, X ω) := (List.getElem?_eq_some_iff.1 hz).2
    rw [e0] at e1
    refine ⟨rows[i], ⟨f, h3, e1⟩, b, hb, fun j hj v hv => ?_⟩
    have := hcell.inside i j v (List.getElem?_eq_some_iff.1 (hX ω)).1 hj (by
      beta_reduce
      rw [cell_everyNth _ ht, cellOf, List.getElem?_eq_getElem hi', Option.bind_some]; exact hv)
    rwa [hcur] at this
  choose r hf b hb hcell using hrow
  obtain ⟨Z, hZ, hrows⟩ := hs _ (fun b hb => desc_trans hd hb) S (hc.fresh.mono_right (descSet_mono (.child i (.child 1 .refl)))) X hXm r hf
  rw [hXl] at hZ
  refine ⟨Z, hZ, fun ω => ⟨b ω, hb ω, fun j hj => hcell ω j hj _ ?_⟩⟩
  have := hrows _ (lt_of_lt_ceil ht hn hj) ω
  cases hq : (r ω)[j * s.thinning]? with
  | none => rw [hq] at this; cases this
  | some o =>
    rw [hq, Option.map_some, Option.some.injEq] at this
    rw [Option.map_some, ← this]

/-- What the acceptance buffer has to achieve: whatever calls `names` come before it, a call of the stepper `s` that records `rows` rows leaves an acceptance buffer in which, except with probability `ε`, the average over
the entries of chain `i` recorded by the call is within `δ` of the rate `r`. -/
def Spec.AcceptanceAfter (env : Ω → Env ℝ D d M O) (P : Measure Ω) (r0 : String → Option (Resource ℝ D d M O)) (data : Data D) (strats : String → Option (Strategy ℝ D d M O))
    (names : List String) (k : Key) (X : Ω → Pos ℝ d) (r δ ε : ℝ) (s : TakeSteps) (rows : ℕ) : Prop :=
  ∀ (w w' w'' : Ω → World ℝ D d M O) (i : ℕ), (∀ ω, (w ω).key = k) → (∀ ω, KeepsSamplers r0 (w ω).heap) →
    (∀ ω, (w ω).xs[i]? = some (X ω)) → (∀ ω, Completes (env ω) strats data names (w ω) (w' ω)) →
    (∀ ω, s.run (env ω) (w' ω).key (w' ω).xs data (w' ω).heap = (.ok ((w'' ω).key, (w'' ω).xs), (w'' ω).heap)) →
      ∀ (n cap cur : ℕ), (∀ ω, (w' ω).xs.length = n) → ∀ (Pn L A : String) (bP bL bA : Ω → Buffer ℝ), (∀ ω, PointsAt (w' ω).heap s Pn L A) →
      (∀ ω, Recorders (w' ω).heap n cap Pn L A (bP ω) (bL ω) (bA ω)) → (∀ ω, (w' ω).heap.pos s.ident = cur) → cur + rows ≤ cap →
      ∃ b : Ω → Buffer ℝ, (∀ ω, (w'' ω).heap.res A = some (.buffer (b ω))) ∧
        P.real {ω | δ < |(∑ j ∈ Finset.range rows, (b ω).data.get [i, cur + j]) / rows - r|} ≤ ε

theorem acceptance_core (k : Key) (h : IdealOn (Desc k) past sig P env) (r0 : String → Option (Resource ℝ D d M O)) (data : Data D) (μ : Measure (Pos ℝ d)) [IsProbabilityMeasure μ]
    (h1 : (BufNum.ofBool true : ℝ) = 1) (h0 : (BufNum.ofBool false : ℝ) = 0)
    (strats : String → Option (Strategy ℝ D d M O)) (names : List String) (hs : ∀ name ∈ names, ∀ s, strats name = some s → ExactStrategy (Desc k) P sig env r0 data μ s)
    (s : TakeSteps) (ν : Measure (Pos ℝ d × ℝ)) [IsProbabilityMeasure ν] (step : Pos ℝ d × ℝ → Pos ℝ d → Pos ℝ d) (out : Pos ℝ d × ℝ → Pos ℝ d → Bool)
    (hm : Measurable fun p : Pos ℝ d × (Pos ℝ d × ℝ) => step p.2 p.1) (ho : Measurable fun p : Pos ℝ d × (Pos ℝ d × ℝ) => out p.2 p.1)
    (htv : ∀ ρ : Measure (Pos ℝ d), IsProbabilityMeasure ρ → TVConverges (fun n => (stepLaw ν step)^[n] ρ) μ)
    (hrows : ∀ n, StepperOuts (Desc k) past sig P env r0 data { s with nSteps := n } ν step out) (X : Ω → Pos ℝ d) (hXm : Measurable[past] X) (δ ε : ℝ) (hδ : 0 < δ) (hε : 0 < ε) :
    ∃ L, ∀ N, L ≤ ceilDiv' N s.thinning → AcceptanceAfter env P r0 data strats names k X (∫ x, ∫ ξ, (if out ξ x then 1 else 0) ∂ν ∂μ) δ ε { s with nSteps := N } (ceilDiv' N s.thinning) := by
  have hXm' : Measurable[mΩ] X := hXm.mono (le_trans (past_le_info (past := past) (sig := sig) (S := {none}) (by simp)) (h.info_le _)) le_rfl
  haveI : IsProbabilityMeasure (P.map X) := Measure.isProbabilityMeasure_map hXm'.aemeasurable
  obtain ⟨Ψ, hΨ⟩ := dictionary_maps h r0 data μ strats names hs
  have key : ∀ (l : List String) (ρ : Measure (Pos ℝ d)), (∀ n ∈ l, n ∈ names) → IsProbabilityMeasure ρ → IsProbabilityMeasure (l.foldl (fun ν n => Ψ n ν) ρ) := by
    intro l
    induction l with
    | nil => exact fun ρ _ hρ => hρ
    | cons a l ih => exact fun ρ hl hρ => ih _ (fun n hn => hl n (List.mem_cons_of_mem _ hn)) ⟨by rw [(hΨ a (hl a List.mem_cons_self)).1.mass.mass ρ inferInstance]; exact hρ.measure_univ⟩
  have hprob := key names (P.map X) (fun _ h => h) inferInstance
  rcases Nat.eq_zero_or_pos s.thinning with ht0 | ht0
  · refine ⟨1, fun N hN => ?_⟩
    rw [ht0] at hN
    simp [ceilDiv'] at hN
  have hpad : Measurable fun x : Pos ℝ d => (x, false) := measurable_id.prodMk measurable_const
  haveI : IsProbabilityMeasure ((names.foldl (fun ν n => Ψ n ν) (P.map X)).map fun x => (x, false)) := Measure.isProbabilityMeasure_map hpad.aemeasurable
  haveI : IsProbabilityMeasure (outLaw ν step out μ) := Measure.isProbabilityMeasure_map (hm.prodMk ho).aemeasurable
  have hfm : Measurable fun b : Bool => if b then (1 : ℝ) else 0 := measurable_of_finite _
  have hfB : ∀ b : Bool, |if b then (1 : ℝ) else 0| ≤ 1 := by intro b; cases b <;> simp
  have tv : ∀ ρ : Measure (Pos ℝ d × Bool), IsProbabilityMeasure ρ → TVConverges (fun n => (stepLaw ν (withOut step out))^[n] ρ) (outLaw ν step out μ) := fun ρ hρ =>
    withOut_tv hm ho ρ (htv _ (Measure.isProbabilityMeasure_map measurable_fst.aemeasurable))
  obtain ⟨L, hL⟩ := chain_lln_bdd (P := P) (withOut_measurable hm ho) (fun x => tv _ inferInstance) (tv ((names.foldl (fun ν n => Ψ n ν) (P.map X)).map fun x => (x, false)) inferInstance)
    (hfm.comp measurable_snd) (fun s => hfB s.2) s.thinning ht0 hδ hε
  refine ⟨max L 1, fun N hN w w' w'' i hkey hres hX hr hrun n cap cur hw Pn Ln A bP bL bA hpt hrec hcur hfit => ?_⟩
  obtain ⟨k', S', hc⟩ := order_close h (fun name hn => (hΨ name hn).2.1) hXm hkey hres hX hr
  have hN0 : 0 < N := by
    rcases Nat.eq_zero_or_pos N with h0 | h0
    · subst h0
      have h1 : 1 ≤ ceilDiv' 0 s.thinning := le_trans (le_max_right _ _) hN
      rw [ceilDiv', Nat.div_eq_of_lt (by omega)] at h1
      omega
    · exact h0
  obtain ⟨ht, Z, hZ, hcell⟩ := stepper_all_outs hc { s with nSteps := N } (hrows N) w'' hrun n cap cur hN0 hw Pn Ln A bP bL bA hpt hrec hcur hfit
  choose b hb hcell using hcell
  refine ⟨b, hb, ?_⟩
  have := hL (ceilDiv' N s.thinning) (le_trans (le_max_left _ _) hN) N Z hZ (fun l hl => lt_of_lt_ceil ht0 hN0 hl)
  have er : ∫ x, ((fun b : Bool => if b then (1 : ℝ) else 0) ∘ Prod.snd) x ∂(outLaw ν step out μ) = ∫ x, ∫ ξ, (if out ξ x then 1 else 0) ∂ν ∂μ := outLaw_integral hm ho μ hfm hfB
  rw [er] at this
  refine le_trans (le_of_eq ?_) this
  congr 1
  ext ω
  have e : ∑ j ∈ Finset.range (ceilDiv' N s.thinning), (b ω).data.get [i, cur + j] = ∑ j ∈ Finset.range (ceilDiv' N s.thinning), ((fun b : Bool => if b then (1 : ℝ) else 0) ∘ Prod.snd) (Z (j * s.thinning + 1) ω) :=
    Finset.sum_congr rfl fun j hj => by
      rw [hcell ω j (Finset.mem_range.1 hj)]
      simp only [Function.comp]
      cases (Z (j * s.thinning + 1) ω).2 <;> simp [h0, h1]
  simp only [Set.mem_setOf_eq, e]

/-- The mean of a flag decided by a uniform number is the mean of its probability. -/
theorem flag_mean {B : Type} [MeasurableSpace B] (ν : Measure B) [IsProbabilityMeasure ν] (out : B × ℝ → Bool) (ho : Measurable out) (a : B → ℝ) (ha : ∀ b, 0 ≤ a b)
    (h : ∀ b, unif {u | out (b, u) = true} = ENNReal.ofReal (a b)) : ∫ ξ, (if out ξ then (1 : ℝ) else 0) ∂(ν.prod unif) = ∫ b, a b ∂ν := by
  have hfm : Measurable fun b : Bool => if b then (1 : ℝ) else 0 := measurable_of_finite _
  have hfB : ∀ b : Bool, |if b then (1 : ℝ) else 0| ≤ 1 := by intro b; cases b <;> simp
  have hi : Integrable (fun ξ => if out ξ then (1 : ℝ) else 0) (ν.prod unif) := integrable_bdd (hfm.comp ho) fun p => hfB _
  rw [integral_prod _ hi]
  refine integral_congr_ae (ae_of_all _ fun b => ?_)
  have hset : MeasurableSet {u | out (b, u) = true} := (ho.comp measurable_prodMk_left) (measurableSet_singleton true)
  have e : (fun u => if out (b, u) then (1 : ℝ) else 0) = Set.indicator {u | out (b, u) = true} 1 := by
    funext u
    by_cases hu : out (b, u) = true <;> simp [hu]
  beta_reduce
  rw [e, integral_indicator_one hset, Measure.real, h b, ENNReal.toReal_ofReal (ha b)]

/-- **C104.** A stepper that uses a random walk, MALA or HMC (short trajectories, diagonal mass matrix) on the target `μ` is used for one long call, from any start and after any calls `names` of exact strategies.  For all `δ`, `ε`
there is `L` such that if the call records at least `L` rows, the average of the acceptance flags of a chain that it records is within `δ` of the stationary acceptance rate of the kernel — the mean over the target and the
kernel's draws of the Metropolis acceptance probability — except with probability `ε`.  (With thinning only every `thinning`-th flag is recorded; the average is nevertheless that rate.) -/
theorem C104_local (k : Key) (h : IdealOn (Desc k) past sig P env) (r0 : String → Option (Resource ℝ D d M O)) (data : Data D) (μ : Measure (Pos ℝ d)) [IsProbabilityMeasure μ]
    (h1 : (BufNum.ofBool true : ℝ) = 1) (h0 : (BufNum.ofBool false : ℝ) = 0)
    (strats : String → Option (Strategy ℝ D d M O)) (names : List String) (hs : ∀ name ∈ names, ∀ s, strats name = some s → ExactStrategy (Desc k) P sig env r0 data μ s)
    (s : TakeSteps) (hk : s.kind = .serial) (kr : KernelRes ℝ d M) (hkr : r0 s.kernelName = some (.kernel kr)) (hx : ExactSettings kr) (lr : Resource ℝ D d M O) (hlr : r0 s.logpdfName = some lr)
    (t : Target ℝ D d) (ht : lr.target? = some t) (hm : Measurable fun x => t.val x data) (hg : Measurable fun x => t.grad x data) (hμ : SamplesFrom μ fun x => t.val x data)
    (hmix : MixingSettings (fun x => t.grad x data) kr) (X : Ω → Pos ℝ d) (hXm : Measurable[past] X) (δ ε : ℝ) (hδ : 0 < δ) (hε : 0 < ε) :
    ∃ L, ∀ N, L ≤ ceilDiv' N s.thinning → AcceptanceAfter env P r0 data strats names k X (localRate kr t data μ) δ ε { s with nSteps := N } (ceilDiv' N s.thinning) := by
  haveI : IsProbabilityMeasure (noise d) := by unfold noise; infer_instance
  have er : localRate kr t data μ = ∫ x, ∫ ξ, (if localAcc kr t data ξ x then 1 else 0) ∂(noise d) ∂μ := by
    refine integral_congr_ae (ae_of_all _ fun x => ?_)
    refine (flag_mean (stdNormal d) (fun ξ => localAcc kr t data ξ x) ((localAcc_measurable kr t data hm hg).comp measurable_prodMk_left) (fun ξ => acceptAt kr t data ξ x) (fun ξ => ?_) (fun ξ => ?_)).symm
    · cases kr with
      | nf _ _ => exact le_rfl
      | grw s => exact le_min zero_le_one (by positivity)
      | mala s => exact le_min zero_le_one (div_nonneg (mul_nonneg (Real.exp_pos _).le (Finset.prod_nonneg fun _ _ => gaussianPDFReal_nonneg _ _ _)) (mul_nonneg (Real.exp_pos _).le (Finset.prod_nonneg fun _ _ => gaussianPDFReal_nonneg _ _ _)))
      | hmc s n m L => exact le_min zero_le_one (Real.exp_pos _).le
    · cases kr with
      | nf _ _ => exact hx.elim
      | grw s => exact C21_grw s t data ξ x
      | mala s => exact C21_mala s hx t data ξ x _ (t.val x data) rfl
      | hmc s n m L => exact C21_hmc s n m L t data ξ x
  rw [er]
  obtain ⟨hfin, rfl⟩ := samplesFrom_normalised μ _ hm hμ
  exact acceptance_core k h r0 data _ h1 h0 strats names hs s (noise d) (localStep kr t data) (localAcc kr t data) (localStep_measurable kr t data hm hg) (localAcc_measurable kr t data hm hg)
    (fun ρ hρ => local_tv kr t data hmix hm hg hfin ρ) (fun n => serial_stepperOuts h r0 data { s with nSteps := n } hk kr hx hkr lr hlr t ht hm hg) X hXm δ ε hδ hε

/-- **C104 (flow proposals).** The same for a stepper that uses the flow's proposals: the flags average to the mean over target and flow draws of `min 1 (p(y) q(x) / (p(x) q(y)))`. -/
theorem C104_flow (k : Key) (h : IdealOn (Desc k) past sig P env) (r0 : String → Option (Resource ℝ D d M O)) (data : Data D) (μ : Measure (Pos ℝ d)) [IsProbabilityMeasure μ]
    (h1 : (BufNum.ofBool true : ℝ) = 1) (h0 : (BufNum.ofBool false : ℝ) = 0)
    (strats : String → Option (Strategy ℝ D d M O)) (names : List String) (hs : ∀ name ∈ names, ∀ s, strats name = some s → ExactStrategy (Desc k) P sig env r0 data μ s)
    (s : TakeSteps) (hk : s.kind = .group) (m : M) (b : ℕ) (hb : 0 < b) (hkr : r0 s.kernelName = some (.kernel (.nf m b))) (lr : Resource ℝ D d M O) (hlr : r0 s.logpdfName = some lr)
    (t : Target ℝ D d) (ht : lr.target? = some t) (hn : IgnoresNSteps t) (hm : Measurable fun x => t.val x data) (hμ : SamplesFrom μ fun x => t.val x data)
    (q : Measure (Pos ℝ d)) [IsProbabilityMeasure q] (lnf : Pos ℝ d → ℝ) (hl : Measurable lnf) (hf : IdealFlowOn (Desc k) P sig env m q lnf)
    (X : Ω → Pos ℝ d) (hXm : Measurable[past] X) (δ ε : ℝ) (hδ : 0 < δ) (hε : 0 < ε) :
    ∃ L, ∀ N, L ≤ ceilDiv' N s.thinning → AcceptanceAfter env P r0 data strats names k X (flowRate t data lnf q μ) δ ε { s with nSteps := N } (ceilDiv' N s.thinning) := by
  have er : flowRate t data lnf q μ = ∫ x, ∫ ξ, (if flowAcc t data lnf ξ x then 1 else 0) ∂(q.prod unif) ∂μ := by
    refine integral_congr_ae (ae_of_all _ fun x => ?_)
    refine (flag_mean q (fun ξ => flowAcc t data lnf ξ x) ((flowAcc_measurable t data lnf hm hl).comp measurable_prodMk_left) (fun y => flowAcceptAt t data lnf y x) (fun y => ?_) (fun y => ?_)).symm
    · exact le_min zero_le_one (by positivity)
    · exact C21_flow x y (t.val x data) (t.val y data) (lnf x) (lnf y)
  rw [er]
  obtain ⟨hfin, rfl⟩ := samplesFrom_normalised μ _ hm hμ
  have hd := flow_mhData t data hm lnf hl q hf.density
  exact acceptance_core k h r0 data _ h1 h0 strats names hs s (q.prod unif) (flowStep t data lnf) (flowAcc t data lnf) hd.meas (flowAcc_measurable t data lnf hm hl)
    (fun ρ hρ => C70_flow t data hm lnf hl q hf.density hfin ρ) (fun n => group_stepperOuts h r0 data { s with nSteps := n } hk m b hb hkr lr hlr t ht hn hm q lnf hl hf) X hXm δ ε hδ hε

end FlowMC
