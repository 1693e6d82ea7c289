import Verif.Props.HMCAlone
/-
C116: HMC without inner leapfrog steps is MALA; on flat log-densities all three local kernels are random walks.
-/
set_option linter.unusedSectionVars false
open scoped BigOperators
namespace FlowMC
open Spec
noncomputable section

variable {D : Type} {d : ℕ} {M O : Type}

theorem unit_momentum (z : Pos ℝ d) : hmcMomentum unitMat z = z := by
  funext i
  simp [hmcMomentum, sumFin_eq, unitMat]

theorem unit_kinetic (p : Pos ℝ d) : hmcKinetic unitMat p = 1 / 2 * ∑ i, p i ^ 2 := by
  simp only [hmcKinetic, sumFin_eq, unitMat, two]
  rw [Finset.sum_comm]
  norm_num
  exact Finset.sum_congr rfl fun i _ => by ring

theorem unit_kineticGrad (p : Pos ℝ d) : hmcKineticGrad unitMat p = p := by
  funext i
  simp [hmcKineticGrad, sumFin_eq, unitMat]

/-- **C116.** One step: HMC with `n_leapfrog = 0` and unit mass matrix does what MALA does with the same step size and the same draws - position, log-density and acceptance flag. -/
theorem C116_step (ε : ℝ) (hε : ε ≠ 0) (t : Target ℝ D d) (data : Data D) (z : Pos ℝ d) (u : ℝ) (x : Pos ℝ d) (lp : ℝ) :
    hmcStep ε 0 unitMat unitMat t data z u x (t.val x data) = malaStep ε t data z u x lp := by
  set g0 := t.grad x data with hg0
  set y := malaProposal ε x g0 z with hy
  set g1 := t.grad y data with hg1
  have hq : leapfrogStep ε 0 unitMat (fun y => fun i => -(t.grad y data i)) (x, z) = (y, fun i => z i + ε / 2 * g0 i + ε / 2 * g1 i) := by
    have e1 : leapfrogBody ε 0 unitMat (fun y => fun i => -(t.grad y data i)) 0 (x, z) = (x, fun i => z i + ε / 2 * g0 i) := by
      simp only [leapfrogBody, leapfrogCoef, two, unit_kineticGrad]
      refine Prod.ext ?_ ?_
      · funext i; simp
      · funext i
        have : (fun i => x i + ε * 0 * z i) = x := by funext i; ring
        simp only [Nat.zero_add, Nat.zero_ne_one, if_false, if_true, this, hg0]
        ring
    have e2 : leapfrogBody ε 0 unitMat (fun y => fun i => -(t.grad y data i)) 1 (x, fun i => z i + ε / 2 * g0 i) = (y, fun i => z i + ε / 2 * g0 i + ε / 2 * g1 i) := by
      have hyy : (fun i => x i + ε * 1 * (z i + ε / 2 * g0 i)) = y := by
        funext i; simp only [hy, malaProposal, malaMean, two]; ring
      simp only [leapfrogBody, leapfrogCoef, two, unit_kineticGrad, Nat.zero_add, if_true, hyy]
      refine Prod.ext rfl ?_
      funext i
      simp only [hg1]
      ring
    rw [leapfrogStep, show List.range (0 + 2) = [0, 1] from rfl, List.foldl_cons, List.foldl_cons, List.foldl_nil, e1, e2]
  have hr : -t.val x data + hmcKinetic unitMat z - (-t.val y data + hmcKinetic unitMat fun i => z i + ε / 2 * g0 i + ε / 2 * g1 i) = malaRatio ε x y g0 g1 (t.val x data) (t.val y data) := by
    rw [unit_kinetic, unit_kinetic]
    simp only [malaRatio, isoNormLogpdf, sumFin_eq, two]
    have s1 : ∑ i, (y i - malaMean ε x g0 i) * (y i - malaMean ε x g0 i) = ε * ε * ∑ i, z i ^ 2 := by
      rw [Finset.mul_sum]
      refine Finset.sum_congr rfl fun i _ => ?_
      simp only [hy, malaProposal]; ring
    have s2 : ∑ i, (x i - malaMean ε y g1 i) * (x i - malaMean ε y g1 i) = ε * ε * ∑ i, (z i + ε / 2 * g0 i + ε / 2 * g1 i) ^ 2 := by
      rw [Finset.mul_sum]
      refine Finset.sum_congr rfl fun i _ => ?_
      simp only [malaMean, two]
      have : y i = x i + ε * ε * g0 i / 2 + ε * z i := by simp only [hy, malaProposal, malaMean, two]; norm_num
      rw [this]; ring
    rw [s1, s2]
    field_simp
    ring
  simp only [hmcStep, unit_momentum, hq, hr, malaStep, neg_neg]
  rfl

/-- **C116.** If the gradient the user's log-density reports is zero everywhere, MALA with step size `ε` is the random walk with step size `ε`. -/
theorem C116_flat_mala (ε : ℝ) (t : Target ℝ D d) (data : Data D) (hflat : ∀ x i, t.grad x data i = 0) (z : Pos ℝ d) (u : ℝ) (x : Pos ℝ d) (lp : ℝ) :
    malaStep ε t data z u x lp = grwStep ε t data z u x (t.val x data) := by
  have hy : malaProposal ε x (t.grad x data) z = grwProposal ε x z := by
    funext i; simp only [malaProposal, malaMean, grwProposal, hflat]; ring
  have hr : malaRatio ε x (grwProposal ε x z) (t.grad x data) (t.grad (grwProposal ε x z) data) (t.val x data) (t.val (grwProposal ε x z) data) = t.val (grwProposal ε x z) data - t.val x data := by
    simp only [malaRatio, isoNormLogpdf, malaMean, hflat, sumFin_eq]
    have : ∑ i, (grwProposal ε x z i - (x i + ε * ε * 0 / two)) * (grwProposal ε x z i - (x i + ε * ε * 0 / two)) =
        ∑ i, (x i - (grwProposal ε x z i + ε * ε * 0 / two)) * (x i - (grwProposal ε x z i + ε * ε * 0 / two)) := Finset.sum_congr rfl fun i _ => by ring
    rw [this]; ring
  simp only [malaStep, grwStep, hy, hr]

/-- **C116.** If the gradient is zero everywhere, HMC with unit mass matrix is the random walk whose step size is the length of the trajectory: `ε (n_leapfrog + 1)`. -/
theorem C116_flat_hmc (ε : ℝ) (n : ℕ) (t : Target ℝ D d) (data : Data D) (hflat : ∀ x i, t.grad x data i = 0) (z : Pos ℝ d) (u : ℝ) (x : Pos ℝ d) :
    hmcStep ε n unitMat unitMat t data z u x (t.val x data) = grwStep (ε * (n + 1)) t data z u x (t.val x data) := by
  have hfold : ∀ m ≤ n + 1, (List.range (m + 1)).foldl (fun s i => leapfrogBody ε n unitMat (fun y => fun i => -(t.grad y data i)) i s) (x, z) = (fun i => x i + ε * m * z i, z) := by
    intro m
    induction m with
    | zero =>
      intro _
      simp only [List.range_one, List.foldl_cons, List.foldl_nil, leapfrogBody, leapfrogCoef, unit_kineticGrad, hflat]
      simp
    | succ m ih =>
      intro hm
      rw [List.range_succ, List.foldl_append, ih (by omega)]
      simp only [List.foldl_cons, List.foldl_nil, leapfrogBody, unit_kineticGrad, hflat]
      have hc : (leapfrogCoef (F := ℝ) n (m + 1)).1 = 1 := by
        simp only [leapfrogCoef]
        split_ifs <;> simp_all
      rw [hc]
      refine Prod.ext ?_ ?_
      · funext i; push_cast; ring
      · funext i; simp
  have hq : leapfrogStep ε n unitMat (fun y => fun i => -(t.grad y data i)) (x, z) = (grwProposal (ε * (n + 1)) x z, z) := by
    have := hfold (n + 1) le_rfl
    rw [leapfrogStep]
    refine this.trans (Prod.ext ?_ rfl)
    funext i
    simp only [grwProposal]; push_cast; ring
  have hr : -t.val x data + hmcKinetic unitMat z - (-t.val (grwProposal (ε * (n + 1)) x z) data + hmcKinetic unitMat z) = t.val (grwProposal (ε * (n + 1)) x z) data - t.val x data := by ring
  simp only [hmcStep, unit_momentum, hq, hr, grwStep, neg_neg]

/-- Two kernel resources that step the target `t` in the same way. -/
def Spec.StepAlike (rng : Rng ℝ) (t : Target ℝ D d) (data : Data D) (kr kr' : KernelRes ℝ d M) : Prop :=
  ∃ K K' : LocalKernel ℝ D d, kr.local? rng = some K ∧ kr'.local? rng = some K' ∧ ∀ n k x, serialSample K t data n k x = serialSample K' t data n k x

theorem alike_of (rng : Rng ℝ) (t : Target ℝ D d) (data : Data D) (kr kr' : KernelRes ℝ d M) (K K' : LocalKernel ℝ D d) (h : kr.local? rng = some K) (h' : kr'.local? rng = some K')
    (hstep : ∀ k x, K k x (t.val x data) t data = K' k x (t.val x data) t data) (hlp : ∀ k x, (K' k x (t.val x data) t data).logp = t.val (K' k x (t.val x data) t data).pos data) : StepAlike rng t data kr kr' := by
  refine ⟨K, K', h, h', fun n k x => ?_⟩
  have : ∀ n k x, scanN (localBody K t data) n (k, x, t.val x data) = scanN (localBody K' t data) n (k, x, t.val x data) := by
    intro n
    induction n with
    | zero => intro k x; rfl
    | succ n ih =>
      intro k x
      have e : localBody K t data (k, x, t.val x data) = localBody K' t data (k, x, t.val x data) := by simp only [localBody, hstep]
      have e' : (localBody K' t data (k, x, t.val x data)).1 = ((split k).1, (K' (split k).2 x (t.val x data) t data).pos, t.val (K' (split k).2 x (t.val x data) t data).pos data) := by
        simp only [localBody, hlp]
      simp only [scanN, e]
      rw [e', ih]
  exact congrArg Prod.snd (this n k x)

/-- **C116.** The whole call of `TakeSerialSteps`: an HMC kernel with `n_leapfrog = 0` and unit mass matrix samples, for the same key, exactly the chain that MALA samples. -/
theorem C116_serial (rng : Rng ℝ) (ε : ℝ) (hε : ε ≠ 0) (t : Target ℝ D d) (data : Data D) : StepAlike rng t data (.hmc ε 0 unitMat unitMat : KernelRes ℝ d M) (.mala ε) := by
  refine alike_of rng t data _ _ _ _ rfl rfl (fun k x => C116_step ε hε t data _ _ x (t.val x data)) fun k x => ?_
  simp only [malaKernel, malaStep]
  split_ifs <;> rfl

/-- **C116.** On a log-density whose reported gradient is zero everywhere: MALA samples the chain of the random walk with its step size, and HMC with unit mass matrix that of the random walk
with step size `ε (n_leapfrog + 1)`. -/
theorem C116_serial_flat (rng : Rng ℝ) (ε : ℝ) (n : ℕ) (t : Target ℝ D d) (data : Data D) (hflat : ∀ x i, t.grad x data i = 0) :
    StepAlike rng t data (.mala ε : KernelRes ℝ d M) (.grw ε) ∧ StepAlike rng t data (.hmc ε n unitMat unitMat : KernelRes ℝ d M) (.grw (ε * (n + 1))) := by
  refine ⟨alike_of rng t data _ _ _ _ rfl rfl (fun k x => C116_flat_mala ε t data hflat _ _ x (t.val x data)) fun k x => ?_,
    alike_of rng t data _ _ _ _ rfl rfl (fun k x => C116_flat_hmc ε n t data hflat _ _ x) fun k x => ?_⟩ <;>
  · simp only [grwKernel, grwStep]
    split_ifs <;> rfl

/-- `resources[name] = kernel` in every heap below: the same resources with another kernel object under the name `name`. -/
def Spec.withKernel (name : String) (kr : KernelRes ℝ d M) (h : Heap ℝ D d M O) : Heap ℝ D d M O := h.setRes name (.kernel kr)

section
variable [BufNum ℝ] (name : String) (kr kr' : KernelRes ℝ d M) (h : Heap ℝ D d M O) (hk : h.res name = some (.kernel kr))
include hk

theorem withKernel_res (m : String) : (withKernel name kr' h).res m = if m = name then some (.kernel kr') else h.res m := by
  simp only [withKernel, Heap.setRes, dictSet]

theorem withKernel_getState (m : String) : (withKernel name kr' h).getState m = h.getState m := by
  by_cases e : m = name
  · subst e
    simp only [Heap.getState, Heap.get, withKernel_res m kr kr' h hk, hk, if_true]
  · simp only [Heap.getState, Heap.get, withKernel_res name kr kr' h hk, if_neg e]

theorem withKernel_getBuffer (m : String) : (withKernel name kr' h).getBuffer m = h.getBuffer m := by
  by_cases e : m = name
  · subst e
    simp only [Heap.getBuffer, Heap.get, withKernel_res m kr kr' h hk, hk, if_true]
  · simp only [Heap.getBuffer, Heap.get, withKernel_res name kr kr' h hk, if_neg e]

theorem withKernel_updateBuffer (m : String) (a : NDArr ℝ) (st : ℤ) :
    (withKernel name kr' h).updateBuffer m a st = ((h.updateBuffer m a st).1, withKernel name kr' (h.updateBuffer m a st).2) ∧ (h.updateBuffer m a st).2.res name = some (.kernel kr) := by
  simp only [Heap.updateBuffer, withKernel_getBuffer name kr kr' h hk]
  cases hb : h.getBuffer m with
  | error e => exact ⟨rfl, hk⟩
  | ok b =>
    have hne : m ≠ name := by
      rintro rfl
      simp [Heap.getBuffer, Heap.get, hk] at hb
    simp only
    cases hu : b.updateBuffer a st with
    | error e => exact ⟨rfl, hk⟩
    | ok b' =>
      refine ⟨Prod.ext rfl ?_, ?_⟩
      · simp only [withKernel, Heap.setRes]
        congr 1
        funext q
        simp only [dictSet]
        by_cases h1 : q = m
        · subst h1; simp [hne]
        · simp [h1]
      · simp only [Heap.setRes, dictSet, if_neg hne.symm, hk]

theorem withKernel_commit (s : TakeSteps) (n : ℕ) (p : StepPlan ℝ d) :
    s.commit n p (withKernel name kr' h) = ((s.commit n p h).1, withKernel name kr' (s.commit n p h).2) := by
  simp only [TakeSteps.commit]
  have hp : ∀ (h : Heap ℝ D d M O) i, (withKernel name kr' h).pos i = h.pos i := fun _ _ => rfl
  obtain ⟨e1, k1⟩ := withKernel_updateBuffer name kr kr' h hk p.posName (posArr n s.nRows p.rows) (h.pos s.ident : ℕ)
  rw [hp, e1]
  revert k1
  rcases h.updateBuffer p.posName (posArr n s.nRows p.rows) (h.pos s.ident : ℕ) with ⟨⟨e⟩ | ⟨_⟩, h1⟩ <;> intro k1
  · rfl
  · obtain ⟨e2, k2⟩ := withKernel_updateBuffer name kr kr' h1 k1 p.lpName (lpArr n s.nRows p.rows) (h.pos s.ident : ℕ)
    simp only [e2]
    revert k2
    rcases h1.updateBuffer p.lpName (lpArr n s.nRows p.rows) (h.pos s.ident : ℕ) with ⟨⟨e⟩ | ⟨_⟩, h2⟩ <;> intro k2
    · rfl
    · obtain ⟨e3, k3⟩ := withKernel_updateBuffer name kr kr' h2 k2 p.accName (accArr n s.nRows p.rows) (h.pos s.ident : ℕ)
      simp only [e3]
      rcases h2.updateBuffer p.accName (accArr n s.nRows p.rows) (h.pos s.ident : ℕ) with ⟨⟨e⟩ | ⟨_⟩, h3⟩
      · rfl
      · cases lastRows p.rows <;> rfl

/-- **C116.** Replacing the kernel of a `TakeSerialSteps` by one that steps alike changes nothing else: the call returns the same (or raises the same exception), and leaves every other
resource and cursor as with the old kernel. -/
theorem C116_take_steps (env : Env ℝ D d M O) (s : TakeSteps) (hs : s.kind = .serial) (hn : s.kernelName = name) (data : Data D)
    (halike : ∀ r t, h.res s.logpdfName = some r → r.target? = some t → StepAlike env.rng t data kr kr') (k : Key) (xs : List (Pos ℝ d)) :
    s.run env k xs data (withKernel name kr' h) = ((s.run env k xs data h).1, withKernel name kr' (s.run env k xs data h).2) := by
  have hplan : s.plan env k xs data (withKernel name kr' h) = s.plan env k xs data h := by
    have hget : (withKernel name kr' h).get s.kernelName = .ok (.kernel kr') := by simp [Heap.get, withKernel_res name kr kr' h hk, hn]
    have hget0 : h.get s.kernelName = .ok (.kernel kr) := by simp [Heap.get, hn, hk]
    have hsam : ((withKernel name kr' h).get s.logpdfName).bind (fun lr => s.sampler env (.kernel kr') lr data) = (h.get s.logpdfName).bind (fun lr => s.sampler env (.kernel kr) lr data) := by
      by_cases e : s.logpdfName = name
      · simp [Heap.get, withKernel_res name kr kr' h hk, e, hk, Except.bind, TakeSteps.sampler, Resource.target?]
      · simp only [Heap.get, withKernel_res name kr kr' h hk, if_neg e]
        cases hr : h.res s.logpdfName with
        | none => rfl
        | some r =>
          simp only [Except.bind, TakeSteps.sampler, hs]
          cases ht : r.target? with
          | none => rfl
          | some t =>
            obtain ⟨K, K', h1, h2, h3⟩ := halike r t hr ht
            simp only [h1, h2, h3]
    simp only [TakeSteps.plan, withKernel_getState name kr kr' h hk, withKernel_getBuffer name kr kr' h hk, hget, hget0]
    have hF : ∀ {α : Type} (F : (Key → Pos ℝ d → Except Err (List (StepOut ℝ d))) → Except Err α),
        ((withKernel name kr' h).get s.logpdfName >>= fun lr => s.sampler env (.kernel kr') lr data >>= F) = (h.get s.logpdfName >>= fun lr => s.sampler env (.kernel kr) lr data >>= F) := by
      intro α F
      have hb := congrArg (fun e => e.bind F) hsam
      revert hb
      cases (withKernel name kr' h).get s.logpdfName <;> cases h.get s.logpdfName <;> exact id
    show (h.getState s.stateName >>= _) = (h.getState s.stateName >>= _)
    congr 1; funext st
    congr 1; funext pn
    congr 1; funext ln
    congr 1; funext an
    congr 1; funext _
    congr 1; funext _
    congr 1; funext _
    exact hF _
  simp only [TakeSteps.run, hplan]
  cases s.plan env k xs data h with
  | error e => rfl
  | ok p => exact withKernel_commit name kr kr' h hk s xs.length p

end
end
end FlowMC
