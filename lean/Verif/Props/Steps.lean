import Verif.Lemmas.StepCall
/-
C12, C14–C17, C19: step strategies and kernels, for every number type `F`.
-/
set_option linter.unusedSectionVars false
namespace FlowMC

variable {F D : Type} {d : Nat} {M O : Type}
variable [Zero F] [One F] [Add F] [Mul F] [Div F] [Sub F] [Neg F] [NatCast F] [Transc F] [FCmp F]

/-! ### C12 -/

/-- C12. The chain batch size is invisible: the whole outcome of a call (returned key and positions, or the exception,
and all resources) is the same for every `chain_batch_size`. -/
theorem C12_chain_batching [BufNum F] (env : Env F D d M O) (s : TakeSteps) (b b' : Nat) (k : Key) (xs : List (Pos F d))
    (data : Data D) (h : Heap F D d M O) :
    ({ s with chainBatchSize := b } : TakeSteps).run env k xs data h =
      ({ s with chainBatchSize := b' } : TakeSteps).run env k xs data h := by
  unfold TakeSteps.run TakeSteps.plan
  simp only [runChains_eq]
  rfl

/-- Non-vacuity of C12: with 5 chains, batch size 2 does take the batched branch (3 batches, the last one short). -/
example : (1 < 2 ∧ 2 < [1, 2, 3, 4, 5].length) ∧
    batchedMapE (fun n : Nat => (Except.ok (n * n) : Except Err Nat)) 2 5 [1, 2, 3, 4, 5]
      = .ok [1, 4, 9, 16, 25] := by decide

/-! ### C16: kernel level -/

/-- C16 (GaussianRandomWalk). -/
theorem C16_grw (s : F) (t : Target F D d) (data : Data D) (ξ : Pos F d) (u : F) (x : Pos F d) (lp : F) :
    let o := grwStep s t data ξ u x lp
    (o.acc = false → o.pos = x ∧ o.logp = lp) ∧
    (o.acc = true → (∀ i, o.pos i = x i + ξ i * s) ∧ o.logp = t.val o.pos data) := by
  simp only [grwStep]
  cases acceptTest u (t.val (grwProposal s x ξ) data - lp) <;> simp [grwProposal]

/-- C16 (MALA). -/
theorem C16_mala (s : F) (t : Target F D d) (data : Data D) (ξ : Pos F d) (u : F) (x : Pos F d) (lp : F) :
    let o := malaStep s t data ξ u x lp
    (o.acc = false → o.pos = x ∧ o.logp = t.val x data) ∧
    (o.acc = true → (∀ i, o.pos i = x i + s * s * t.grad x data i / (1 + 1) + s * ξ i) ∧ o.logp = t.val o.pos data) := by
  simp only [malaStep]
  cases acceptTest u (malaRatio s x (malaProposal s x (t.grad x data) ξ) (t.grad x data)
    (t.grad (malaProposal s x (t.grad x data) ξ) data) (t.val x data)
    (t.val (malaProposal s x (t.grad x data) ξ) data)) <;> simp [malaProposal, malaMean, two]

/-- C16 (HMC): an accepted step ends at the end point of the leapfrog trajectory. -/
theorem C16_hmc (s : F) (n : Nat) (metric L : Mat F d) (t : Target F D d) (data : Data D) (z : Pos F d) (u : F)
    (x : Pos F d) (lp : F) :
    let o := hmcStep s n metric L t data z u x lp
    (o.acc = false → o.pos = x ∧ o.logp = lp) ∧
    (o.acc = true →
      o.pos = (leapfrogStep s n metric (fun y i => -(t.grad y data i)) (x, hmcMomentum L z)).1 ∧
      o.logp = - -(t.val o.pos data)) := by
  simp only [hmcStep]
  split <;> simp_all

/-- C16 (NFProposal). -/
theorem C16_nf (u : F) (c : NFCarry F d) (p : Pos F d × F × F) :
    let o := (nfBody u c p).2
    (o.acc = false → o.pos = c.pos ∧ o.logp = c.logp) ∧ (o.acc = true → o.pos = p.1 ∧ o.logp = p.2.1) := by
  simp only [nfBody]
  cases acceptTest u (p.2.1 - c.logp - (p.2.2 - c.lognf)) <;> simp

/-! ### trajectories -/

/-- A local kernel keeps the chain in place when its flag is false. -/
def StaysOnReject (K : LocalKernel F D d) : Prop :=
  ∀ k x lp t data, (K k x lp t data).acc = false → (K k x lp t data).pos = x

theorem local?_stays (rng : Rng F) (kr : KernelRes F d M) (K : LocalKernel F D d) (h : kr.local? rng = some K) :
    StaysOnReject K := by
  intro k x lp t data hacc
  cases kr with
  | grw s => simp [KernelRes.local?] at h; subst h; exact ((C16_grw _ _ _ _ _ _ _).1 hacc).1
  | mala s => simp [KernelRes.local?] at h; subst h; exact ((C16_mala _ _ _ _ _ _ lp).1 hacc).1
  | hmc s n m L => simp [KernelRes.local?] at h; subst h; exact ((C16_hmc _ _ _ _ _ _ _ _ _ _).1 hacc).1
  | nf m b => simp [KernelRes.local?] at h

theorem serialSample_length (K : LocalKernel F D d) (t : Target F D d) (data : Data D) (n : Nat) (k : Key) (x : Pos F d) :
    (serialSample K t data n k x).length = n := scanN_length _ _ _

/-- The chain's position before step `j`: the start for `j = 0`, else the row of step `j-1`. -/
def posBefore (x0 : Pos F d) (rows : List (StepOut F d)) : Nat → Option (Pos F d)
  | 0 => some x0
  | j + 1 => (rows[j]?).map (·.pos)

theorem serialSample_state (K : LocalKernel F D d) (t : Target F D d) (data : Data D) (n : Nat) (k : Key) (x : Pos F d)
    (j : Nat) (hj : j ≤ n) :
    posBefore x (serialSample K t data n k x) j =
      some (iterState (localBody K t data) j (k, x, t.val x data)).2.1 := by
  cases j with
  | zero => rfl
  | succ j =>
    have : j < n := by omega
    simp [posBefore, serialSample, scanN_getElem?, this, iterState_succ', localBody]

/-- C16. In a serial chain, a row whose flag is false repeats the position before it; so consecutive rows differ only
where the later flag is true. -/
theorem C16_serial_rows (rng : Rng F) (kr : KernelRes F d M) (K : LocalKernel F D d) (hK : kr.local? rng = some K)
    (t : Target F D d) (data : Data D) (n : Nat) (k : Key) (x : Pos F d) (j : Nat) (o : StepOut F d)
    (ho : (serialSample K t data n k x)[j]? = some o) (hacc : o.acc = false) :
    posBefore x (serialSample K t data n k x) j = some o.pos := by
  have hj : j < n := by
    have := (List.getElem?_eq_some_iff.1 ho).1
    rwa [serialSample_length] at this
  rw [serialSample_state _ _ _ _ _ _ _ (by omega)]
  simp only [serialSample, scanN_getElem?, hj, if_true, Option.some.injEq] at ho
  subst ho
  simp only [localBody] at hacc ⊢
  rw [local?_stays rng kr K hK _ _ _ _ _ hacc]

theorem nfScan_getElem? (rng : Rng F) (k : Key) (c : NFCarry F d) (props : List (Pos F d × F × F)) (j : Nat)
    (o : StepOut F d) (ho : (nfScan rng k c props)[j]? = some o) :
    ∃ u c' p, props[j]? = some p ∧ o = (nfBody u c' p).2 ∧
      posBefore c.pos (nfScan rng k c props) j = some c'.pos := by
  unfold nfScan at *
  induction props generalizing k c j with
  | nil => simp [scan] at ho
  | cons p ps ih =>
    simp only [scan] at ho ⊢
    cases j with
    | zero =>
      simp only [List.getElem?_cons_zero, Option.some.injEq] at ho
      exact ⟨_, c, p, rfl, ho.symm, rfl⟩
    | succ j =>
      simp only [List.getElem?_cons_succ] at ho
      obtain ⟨u, c', q, h1, h2, h3⟩ := ih _ _ _ ho
      refine ⟨u, c', q, by simpa using h1, h2, ?_⟩
      cases j with
      | zero => exact h3
      | succ j => exact h3

/-- C16. Same for the flow kernel. -/
theorem C16_nf_rows (env : Env F D d M O) (m : M) (batch : Nat) (t : Target F D d) (data : Data D) (n : Nat) (k : Key)
    (x : Pos F d) (rows : List (StepOut F d)) (hr : groupSample env m batch t data n k x = .ok rows) (j : Nat)
    (o : StepOut F d) (ho : rows[j]? = some o) (hacc : o.acc = false) : posBefore x rows j = some o.pos := by
  simp only [groupSample, nfKernel] at hr
  split at hr
  · simp at hr
  · simp only [Except.ok.injEq] at hr
    subst hr
    obtain ⟨u, c', p, -, h2, h3⟩ := nfScan_getElem? _ _ _ _ _ _ ho
    rw [h3]
    subst h2
    rw [((C16_nf u c' p).1 hacc).1]

/-! ### C14 -/

/-- A kernel keeps "log_prob is the density of position" provided it starts so. -/
def KeepsLogp (K : LocalKernel F D d) (t : Target F D d) (data : Data D) : Prop :=
  ∀ k x, (K k x (t.val x data) t data).logp = t.val (K k x (t.val x data) t data).pos data

theorem local?_keeps (rng : Rng F) (kr : KernelRes F d M) (K : LocalKernel F D d) (h : kr.local? rng = some K)
    (hneg : ∀ a : F, - -a = a) (t : Target F D d) (data : Data D) : KeepsLogp K t data := by
  intro k x
  cases kr with
  | grw s =>
    simp [KernelRes.local?] at h; subst h
    obtain ⟨h1, h2⟩ := C16_grw s t data (rng.normal (split k).1 d) (rng.uniform (split k).2) x (t.val x data)
    simp only [grwKernel]
    cases hacc : (grwStep s t data (rng.normal (split k).1 d) (rng.uniform (split k).2) x (t.val x data)).acc with
    | false => rw [(h1 hacc).1, (h1 hacc).2]
    | true => exact (h2 hacc).2
  | mala s =>
    simp [KernelRes.local?] at h; subst h
    obtain ⟨h1, h2⟩ := C16_mala s t data (rng.normal (split k).1 d) (rng.uniform (split k).2) x (t.val x data)
    simp only [malaKernel]
    cases hacc : (malaStep s t data (rng.normal (split k).1 d) (rng.uniform (split k).2) x (t.val x data)).acc with
    | false => rw [(h1 hacc).1, (h1 hacc).2]
    | true => exact (h2 hacc).2
  | hmc s n m L =>
    simp [KernelRes.local?] at h; subst h
    obtain ⟨h1, h2⟩ := C16_hmc s n m L t data (rng.normal (split k).1 d) (rng.uniform (split k).2) x (t.val x data)
    simp only [hmcKernel]
    cases hacc : (hmcStep s n m L t data (rng.normal (split k).1 d) (rng.uniform (split k).2) x (t.val x data)).acc with
    | false => rw [(h1 hacc).1, (h1 hacc).2]
    | true => rw [(h2 hacc).2, hneg]
  | nf m b => simp [KernelRes.local?] at h

theorem iter_logp (K : LocalKernel F D d) (t : Target F D d) (data : Data D) (hk : KeepsLogp K t data) (k : Key)
    (x : Pos F d) (j : Nat) :
    (iterState (localBody K t data) j (k, x, t.val x data)).2.2 =
      t.val (iterState (localBody K t data) j (k, x, t.val x data)).2.1 data := by
  induction j generalizing k x with
  | zero => rfl
  | succ j ih =>
    simp only [iterState, localBody]
    rw [hk]
    exact ih _ _

/-- C14. Every row a serial stepper produces carries the log-density of its own position (`-(-x) = x` is the only
arithmetic fact used, for HMC). -/
theorem C14_logp_local (rng : Rng F) (kr : KernelRes F d M) (K : LocalKernel F D d) (hK : kr.local? rng = some K)
    (hneg : ∀ a : F, - -a = a) (t : Target F D d) (data : Data D) (n : Nat) (k : Key) (x : Pos F d) (o : StepOut F d)
    (ho : o ∈ serialSample K t data n k x) : o.logp = t.val o.pos data := by
  obtain ⟨j, hj, rfl⟩ := List.mem_iff_getElem.1 ho
  have hj' : j < n := by rwa [serialSample_length] at hj
  have hk := local?_keeps rng kr K hK hneg t data
  have : (serialSample K t data n k x)[j]? = some (serialSample K t data n k x)[j] := List.getElem?_eq_getElem hj
  simp only [serialSample, scanN_getElem?, hj', if_true, Option.some.injEq] at this
  rw [show (serialSample K t data n k x)[j] = _ from this.symm]
  simp only [localBody]
  rw [iter_logp K t data hk]
  exact hk _ _

/-! ### C27 and C15 -/

theorem flowBatches_flatten_length (ops : FlowOps F d M O) (hl : ops.Lawful) (m : M) (ns n : Nat) (k : Key) :
    (flowBatches ops m ns n k).flatten.length = n * ns := by
  induction n generalizing k with
  | zero => simp [flowBatches]
  | succ n ih =>
    have := hl m (split k).2 ns
    simp only [flowBatches, List.flatten_cons, List.length_append, ih, this, Nat.add_mul, Nat.one_mul]
    omega

/-- C27. `sample_flow` returns exactly `n_steps` proposals for every batch size `≥ 1`. -/
theorem C27_count (ops : FlowOps F d M O) (hl : ops.Lawful) (m : M) (batch : Nat) (hb : 0 < batch) (k : Key) (n : Nat) :
    (sampleFlow ops m batch k n).length = n := by
  unfold sampleFlow
  split
  · rename_i h
    have hn : 0 < n := by omega
    have h1 : 0 < ceilDiv' n batch := ceilDiv'_pos n batch hb hn
    simp only [List.length_take]
    rw [← List.map_flatten, List.length_map, flowBatches_flatten_length ops hl]
    have := ceilDiv'_mul_ge n (ceilDiv' n batch) h1
    rw [Nat.mul_comm] at this
    omega
  · simp [hl m k n]

/-- C27. Every proposal is paired with its own flow log-density. -/
theorem C27_flow_logprob (ops : FlowOps F d M O) (m : M) (batch : Nat) (k : Key) (n : Nat) :
    ∀ p ∈ sampleFlow ops m batch k n, p.2 = ops.logProb m p.1 := by
  intro p hp
  unfold sampleFlow at hp
  split at hp
  · have := List.mem_of_mem_take hp
    rw [← List.map_flatten, List.mem_map] at this
    obtain ⟨x, -, rfl⟩ := this
    rfl
  · rw [List.mem_map] at hp
    obtain ⟨x, -, rfl⟩ := hp
    rfl

/-- C27. No flow or target evaluation batch is larger than the configured batch size: the flow draws come in batches of
`⌈n / ⌈n/b⌉⌉ ≤ b` rows, and the target is evaluated on batches of `b` rows and a remainder of at most `b`. -/
theorem C27_batch_bound (n b : Nat) (hb : 0 < b) (h : b < n) :
    ceilDiv' n (ceilDiv' n b) ≤ b ∧ n - (ceilDiv' n b - 1) * b ≤ b ∧ 0 < n - (ceilDiv' n b - 1) * b := by
  have hn : 0 < n := by omega
  have h1 := ceilDiv'_pos n b hb hn
  have h2 := ceilDiv'_mul_ge n b hb
  have h3 := ceilDiv'_mul_lt n b hb hn
  refine ⟨?_, ?_, by omega⟩
  · unfold ceilDiv' at h2 ⊢
    change 0 < (n + b - 1) / b at h1
    generalize hq : (n + b - 1) / b = q at *
    rw [Nat.div_le_iff_le_mul_add_pred h1]
    have : q * b = b * q := Nat.mul_comm _ _
    have h4 : q * b = b * q := Nat.mul_comm _ _
    omega
  · have : ceilDiv' n b * b = (ceilDiv' n b - 1) * b + b := by
      conv => lhs; rw [show ceilDiv' n b = (ceilDiv' n b - 1) + 1 by omega]
      rw [Nat.add_mul, Nat.one_mul]
    omega

/-- C27. The batched evaluation of the target equals the unbatched one: each proposal is paired with its own target
log-density, whatever the batch size. -/
theorem C27_target_logprob (t : Target F D d) (data : Data D) (batch : Nat) (hb : 0 < batch) (props : List (Pos F d)) :
    proposedLogProbs t data batch props.length props = props.map (fun x => t.val x data) := by
  unfold proposedLogProbs
  split
  · rename_i h
    dsimp only
    have hn : 0 < props.length := by omega
    have h3 := ceilDiv'_mul_lt props.length batch hb hn
    rw [← List.map_flatten, chunks_flatten, List.take_take, Nat.min_self, ← List.map_append]
    rw [List.take_of_length_le (l := props.drop _) (by simp), List.take_append_drop]
  · rfl

/-- The flow kernel evaluates targets with the key `"n_steps"` added to `data`; a log-density that ignores that key. -/
def IgnoresNSteps (t : Target F D d) : Prop := ∀ x u n n', t.val x ⟨u, n⟩ = t.val x ⟨u, n'⟩

theorem groupSample_ok (env : Env F D d M O) (hl : env.ops.Lawful) (m : M) (batch : Nat) (hb : 0 < batch)
    (t : Target F D d) (data : Data D) (n : Nat) (k : Key) (x : Pos F d) :
    ∃ rows, groupSample env m batch t data n k x = .ok rows ∧ rows.length = n := by
  simp only [groupSample, nfKernel]
  have hb' : ¬ (batch = 0 ∧ 0 < n) := by omega
  rw [if_neg hb']
  refine ⟨_, rfl, ?_⟩
  have hc := C27_count env.ops hl m batch hb (split k).2 n
  have hlp : (proposedLogProbs t { data with nSteps := some n } batch n
      ((sampleFlow env.ops m batch (split k).2 n).map (·.1))).length = n := by
    have := C27_target_logprob t { data with nSteps := some n } batch hb
      ((sampleFlow env.ops m batch (split k).2 n).map (·.1))
    rw [List.length_map, hc] at this
    rw [this]; simp [hc]
  simp [nfScan, scan_length, hc, hlp]

/-- C15. Every row produced by the flow kernel carries the target log-density of its own position, for every proposal
batch size `≥ 1` (for a target that ignores the `"n_steps"` key which the strategy injects into `data`). -/
theorem C15_logp_nf (env : Env F D d M O) (hl : env.ops.Lawful) (m : M) (batch : Nat) (hb : 0 < batch)
    (t : Target F D d) (ht : IgnoresNSteps t) (data : Data D) (n : Nat) (k : Key) (x : Pos F d) :
    ∃ rows, groupSample env m batch t data n k x = .ok rows ∧ rows.length = n ∧
      ∀ o ∈ rows, o.logp = t.val o.pos data := by
  simp only [groupSample, nfKernel]
  have hb' : ¬ (batch = 0 ∧ 0 < n) := by omega
  rw [if_neg hb']
  refine ⟨_, rfl, ?_, ?_⟩
  · have hc := C27_count env.ops hl m batch hb (split k).2 n
    have hlp : (proposedLogProbs t { data with nSteps := some n } batch n
        ((sampleFlow env.ops m batch (split k).2 n).map (·.1))).length = n := by
      have := C27_target_logprob t { data with nSteps := some n } batch hb
        ((sampleFlow env.ops m batch (split k).2 n).map (·.1))
      rw [List.length_map, hc] at this
      rw [this]; simp [hc]
    simp [nfScan, scan_length, hc, hlp]
  · have hc := C27_count env.ops hl m batch hb (split k).2 n
    have hlp := C27_target_logprob t { data with nSteps := some n } batch hb
        ((sampleFlow env.ops m batch (split k).2 n).map (·.1))
    rw [List.length_map, hc] at hlp
    rw [hlp]
    have inv : ∀ (props : List (Pos F d × F × F)) (k : Key) (c : NFCarry F d), c.logp = t.val c.pos data →
        (∀ p ∈ props, p.2.1 = t.val p.1 data) →
        ∀ o ∈ nfScan env.rng k c props, o.logp = t.val o.pos data := by
      intro props
      induction props with
      | nil => intro k c _ _ o ho; simp [nfScan, scan] at ho
      | cons p ps ih =>
        intro k c hc hp o ho
        have hstep : (nfBody (env.rng.uniform (split k).2) c p).1.logp =
            t.val (nfBody (env.rng.uniform (split k).2) c p).1.pos data := by
          simp only [nfBody]
          split
          · exact hp p (by simp)
          · exact hc
        simp only [nfScan, scan, List.mem_cons] at ho
        rcases ho with rfl | ho
        · exact hstep
        · exact ih _ _ hstep (fun q hq => hp q (by simp [hq])) o ho
    apply inv
    · rfl
    · intro p hp
      rw [List.mem_map] at hp
      obtain ⟨q, hq, rfl⟩ := hp
      rw [List.map_map, List.zip_map_right, List.mem_map] at hq
      obtain ⟨r, hr, rfl⟩ := hq
      simp only [Prod.map, Function.comp]
      have : r.1 = r.2 := by
        obtain ⟨i, hi, rfl⟩ := List.mem_iff_getElem.1 hr
        simp
      rw [← this]
      exact ht _ _ _ _

/-! ### C17 -/

/-- C17. With thinning `t ≥ 1` exactly the steps `0, t, 2t, …` below `n` are recorded, in order. -/
theorem C17_thinned_rows {α : Type} (t : Nat) (ht : 0 < t) (rows : List α) :
    (everyNth t rows).length = (rows.length + t - 1) / t ∧ ∀ j, (everyNth t rows)[j]? = rows[j * t]? :=
  ⟨everyNth_length t ht rows, everyNth_getElem? t ht rows⟩

/-- C17. The position handed to the next strategy is, for every chain, that of the last recorded row: step
`(⌈n/t⌉ - 1)·t`, which is step `n - 1` only if `t` divides `n - 1`. -/
theorem C17_returned_row (t n : Nat) (ht : 0 < t) (hn : 0 < n) (rows : List (List (StepOut F d)))
    (hlen : ∀ r ∈ rows, r.length = n) :
    ∃ xs, lastRows (rows.map (everyNth t)) = .ok xs ∧ xs.length = rows.length ∧
      ∀ i : Nat, xs[i]? = (rows[i]?).bind (fun r => (r[((n + t - 1) / t - 1) * t]?).map (·.pos)) := by
  unfold lastRows
  have key : ∀ r : List (StepOut F d), r.length = n →
      ∃ o, (everyNth t r).getLast? = some o ∧ r[((n + t - 1) / t - 1) * t]? = some o := by
    intro r hr
    have h1 := everyNth_length t ht r
    rw [hr] at h1
    have h2 := ceilDiv'_pos n t ht hn
    rw [List.getLast?_eq_getElem?, everyNth_getElem? t ht, h1]
    have h3 := ceilDiv'_mul_lt n t ht hn
    unfold ceilDiv' at *
    exact ⟨r[((n + t - 1) / t - 1) * t]'(by omega), by simp [hr, h3], by simp [hr, h3]⟩
  induction rows with
  | nil => exact ⟨[], rfl, rfl, by simp⟩
  | cons r rs ih =>
    obtain ⟨xs, h1, h2, h3⟩ := ih (fun r hr => hlen r (by simp [hr]))
    obtain ⟨o, ho, ho'⟩ := key r (hlen r (by simp))
    refine ⟨o.pos :: xs, ?_, by simp [h2], ?_⟩
    · simp only [List.map_cons, mapE, ho]
      rw [h1]
    · intro i
      cases i with
      | zero => simp [ho']
      | succ i => simpa using h3 i

/-- Non-vacuity of C17: 7 steps thinned by 3 record steps 0, 3, 6. -/
example : everyNth 3 [0, 1, 2, 3, 4, 5, 6] = [0, 3, 6] ∧ everyNth 3 [0, 1, 2, 3, 4] = [0, 3] := by decide

end FlowMC
