import Verif.Props.Keys
import Verif.Props.Tempering
import Verif.Spec.Draws
/-
C29 inside a call: the proposal and the acceptance decision of a step, the batches of flow proposals, the moves at different temperatures and the exchanges, the
choice of training data and the shuffles of the epochs all use draws made at pairwise unrelated keys.
-/
set_option linter.unusedSectionVars false
namespace FlowMC
open Spec

variable {F D : Type} {d : Nat} {M O : Type}
variable [Zero F] [One F] [Add F] [Mul F] [Div F] [Sub F] [Neg F] [NatCast F] [Transc F] [FCmp F]

theorem children_unrelated {k a b : Key} {i j : Nat} (h : i ≠ j) (ha : Desc (.child k i) a) (hb : Desc (.child k j) b) : ¬ Desc a b ∧ ¬ Desc b a :=
  ⟨fun hab => children_disjoint h ⟨desc_trans ha hab, hb⟩, fun hba => children_disjoint h ⟨ha, desc_trans hb hba⟩⟩

theorem stepKey_unrelated (k : Key) {i j : Nat} (h : i ≠ j) : ¬ Desc (stepKey k i) (stepKey k j) ∧ ¬ Desc (stepKey k j) (stepKey k i) :=
  ⟨fun hd => C29_steps_disjoint k _ i j h ⟨hd, .refl⟩, fun hd => C29_steps_disjoint k _ i j h ⟨.refl, hd⟩⟩

theorem desc_stepKey (k : Key) (j : Nat) : Desc k (stepKey k j) := desc_trans (desc_carryKey k j) desc_child_self

theorem stepKeys_unrelated (k : Key) (n : Nat) : Unrelated ((List.range n).map (stepKey k)) := by
  refine List.Pairwise.map (stepKey k) (R := fun i j : Nat => i ≠ j) (fun i j h => stepKey_unrelated k h) ?_
  exact List.nodup_range

/-- C29 (inside a step). The noise of the proposal and the uniform number of the acceptance decision of a local kernel are drawn with two unrelated keys, both derived
from the key of the step. -/
theorem C29_kernel_draws (kr : KernelRes F d M) (k : Key) : ∃ kn ku, Unrelated [kn, ku] ∧ Desc k kn ∧ Desc k ku ∧
    ∀ (rng : Rng F) (K : LocalKernel F D d), kr.local? rng = some K → ∀ (x : Pos F d) (lp : F) (t : Target F D d) (data : Data D),
      some (K k x lp t data) = stepWith kr t data (rng.normal kn d) (rng.uniform ku) x lp := by
  refine ⟨.child k 0, .child k 1, ?_, desc_child_self, desc_child_self, ?_⟩
  · simp only [Unrelated, List.pairwise_cons, List.mem_cons, List.not_mem_nil, or_false, forall_eq, List.Pairwise.nil, and_true]
    exact ⟨children_unrelated (by decide) .refl .refl, fun _ h => absurd h (by simp)⟩
  · intro rng K hK x lp t data
    cases kr with
    | grw s => simp only [KernelRes.local?, Option.some.injEq] at hK; subst hK; rfl
    | mala s => simp only [KernelRes.local?, Option.some.injEq] at hK; subst hK; rfl
    | hmc s n m L => simp only [KernelRes.local?, Option.some.injEq] at hK; subst hK; rfl
    | nf m b => simp [KernelRes.local?] at hK

theorem nfScan_with (rng : Rng F) (props : List (Pos F d × F × F)) (k : Key) (c : NFCarry F d) :
    nfScan rng k c props = sweepWith ((List.range props.length).map (fun j => rng.uniform (stepKey k j))) c props := by
  induction props generalizing k c with
  | nil => rfl
  | cons p ps ih =>
    have h1 : nfScan rng k c (p :: ps) = (nfBody (rng.uniform (.child k 1)) c p).2 :: nfScan rng (.child k 0) (nfBody (rng.uniform (.child k 1)) c p).1 ps := rfl
    rw [h1, ih, List.length_cons, List.range_succ_eq_map, List.map_cons, List.map_map]
    rfl

theorem flowBatches_keys (ops : FlowOps F d M O) (m : M) (ns n : Nat) (k : Key) :
    (flowBatches ops m ns n k).flatten = ((List.range n).map (stepKey k)).flatMap (fun a => ops.sample m a ns) := by
  induction n generalizing k with
  | zero => rfl
  | succ n ih =>
    simp only [flowBatches, split, List.flatten_cons, ih, List.range_succ_eq_map, List.map_cons, List.map_map, List.flatMap_cons]
    rfl

/-- C29 (inside a flow call). All the batches of flow proposals and all the acceptance decisions of a call use pairwise unrelated keys: there are keys `sk` of the
batches (of `ns` rows each) and `uk` of the decisions, such that in every world the rows are those of the sweep over the drawn proposals. -/
theorem C29_flow_draws (m : M) (batch : Nat) (hb : 0 < batch) (n : Nat) (k : Key) : ∃ (sk uk : List Key) (ns : Nat), Unrelated (sk ++ uk) ∧ (∀ a ∈ sk ++ uk, Desc k a) ∧
    uk.length = n ∧ ns ≤ batch ∧ ∀ (env : Env F D d M O), env.ops.Lawful → ∀ (t : Target F D d) (data : Data D) (x : Pos F d),
      groupSample env m batch t data n k x = .ok (sweepWith (uk.map env.rng.uniform) ⟨x, t.val x data, env.ops.logProb m x⟩
        (((sk.flatMap (fun a => env.ops.sample m a ns)).take n).map (fun p => (p, t.val p { data with nSteps := some n }, env.ops.logProb m p)))) := by
  obtain ⟨sk, ns, hsk, hns, hdesc, hprops⟩ : ∃ (sk : List Key) (ns : Nat), Unrelated sk ∧ ns ≤ batch ∧ (∀ a ∈ sk, Desc (.child k 1) a) ∧
      ∀ env : Env F D d M O, env.ops.Lawful → sampleFlow env.ops m batch (.child k 1) n =
        ((sk.flatMap (fun a => env.ops.sample m a ns)).take n).map (fun p => (p, env.ops.logProb m p)) := by
    by_cases h : batch < n
    · refine ⟨(List.range (ceilDiv' n batch)).map (stepKey (.child k 1)), ceilDiv' n (ceilDiv' n batch), stepKeys_unrelated _ _, (C27_batch_bound n batch hb h).1, ?_, ?_⟩
      · intro a ha
        obtain ⟨j, -, rfl⟩ := List.mem_map.1 ha
        exact desc_stepKey _ j
      · intro env _
        simp only [sampleFlow, h, if_true]
        rw [← List.map_flatten, flowBatches_keys, List.map_take]
    · refine ⟨[.child k 1], n, List.pairwise_singleton _ _, Nat.le_of_not_lt h, ?_, ?_⟩
      · intro a ha
        rw [List.mem_singleton.1 ha]; exact .refl
      · intro env hl
        simp only [sampleFlow, h, if_false, List.flatMap_cons, List.flatMap_nil, List.append_nil]
        rw [List.take_of_length_le (Nat.le_of_eq (hl m _ n))]
  refine ⟨sk, (List.range n).map (stepKey (.child k 0)), ns, ?_, ?_, by simp, hns, ?_⟩
  · refine List.pairwise_append.2 ⟨hsk, stepKeys_unrelated _ _, ?_⟩
    intro a ha b hb
    obtain ⟨j, -, rfl⟩ := List.mem_map.1 hb
    exact children_unrelated (by decide) (hdesc a ha) (desc_stepKey _ j)
  · intro a ha
    rcases List.mem_append.1 ha with ha | ha
    · exact desc_trans desc_child_self (hdesc a ha)
    · obtain ⟨j, -, rfl⟩ := List.mem_map.1 ha
      exact desc_trans desc_child_self (desc_stepKey _ j)
  · intro env hl t data x
    simp only [groupSample, nfKernel, split]
    rw [if_neg (by omega : ¬ (batch = 0 ∧ 0 < n))]
    have hc := C27_count env.ops hl m batch hb (.child k 1) n
    have hlp := C27_target_logprob t { data with nSteps := some n } batch hb ((sampleFlow env.ops m batch (.child k 1) n).map (·.1))
    rw [List.length_map, hc] at hlp
    rw [hlp, nfScan_with]
    have hz : ((sampleFlow env.ops m batch (.child k 1) n).zip (((sampleFlow env.ops m batch (.child k 1) n).map (·.1)).map
          (fun x => t.val x { data with nSteps := some n }))).map (fun pl => (pl.1.1, pl.2, pl.1.2)) =
        ((sk.flatMap (fun a => env.ops.sample m a ns)).take n).map (fun p => (p, t.val p { data with nSteps := some n }, env.ops.logProb m p)) := by
      rw [hprops env hl, List.map_map, List.map_map, List.zip_map', List.map_map]
      rfl
    rw [hz]
    have hl' : (((sk.flatMap (fun a => env.ops.sample m a ns)).take n).map (fun p => (p, t.val p { data with nSteps := some n }, env.ops.logProb m p))).length = n := by
      rw [hprops env hl, List.length_map] at hc
      rw [List.length_map, hc]
    rw [hl', List.map_map]
    rfl

theorem exchScan_with (rng : Rng F) (Ts : List F) (n i : Nat) (k : Key) (c : ExchCarry F d) :
    exchScan rng Ts n i k c = exchangeWith Ts ((List.range n).map (fun j => rng.uniform (stepKey k j))) i c := by
  induction n generalizing i k c with
  | zero => rfl
  | succ n ih =>
    simp only [exchScan, split, ih, List.range_succ_eq_map, List.map_cons, List.map_map, exchangeWith]
    rfl

/-- C29 (inside an exchange sweep). The decisions about the neighbouring pairs `(0,1), (1,2), …` use uniform numbers drawn with pairwise unrelated keys. -/
theorem C29_exchange_draws (n : Nat) (k : Key) : ∃ uk : List Key, Unrelated uk ∧ (∀ a ∈ uk, Desc k a) ∧ uk.length = n - 1 ∧
    ∀ (rng : Rng F) (l : TemperedPDF F D d) (data : Data D) (Ts : List F) (xs : List (Pos F d)), xs.length = n →
      exchange rng l data Ts k xs = exchangeWith Ts (uk.map rng.uniform) 0 ⟨xs, xs.map (fun x => l.base.logPdf.val x data)⟩ := by
  refine ⟨(List.range (n - 1)).map (stepKey k), stepKeys_unrelated _ _, ?_, by simp, ?_⟩
  · intro a ha
    obtain ⟨j, -, rfl⟩ := List.mem_map.1 ha
    exact desc_stepKey _ j
  · intro rng l data Ts xs hx
    rw [exchange, exchScan_with, hx, List.map_map]
    rfl

theorem trainLoop_with (rng : Rng F) (ops : FlowOps F d M O) (init : F) (data : List (Pos F d)) (batch : Nat) (n : Nat) (s : TrainState F M O) :
    let r := trainLoop rng ops init data batch n s
    let e := epochsWith ops init data batch ((List.range n).map (fun j => rng.permutation (stepKey s.rng j) data.length)) s.model s.state
    r.rng = carryKey s.rng n ∧ r.model = e.1 ∧ r.state = e.2.1 ∧ r.losses = s.losses ++ e.2.2 := by
  induction n generalizing s with
  | zero => simp [trainLoop, epochsWith, carryKey]
  | succ n ih =>
    have h := ih (trainLoopBody rng ops init data batch s)
    simp only [trainLoop, List.range_succ_eq_map, List.map_cons, List.map_map, epochsWith]
    simp only [trainLoopBody, split] at h
    simp only [trainLoopBody, split]
    refine ⟨h.1, h.2.1, h.2.2.1, h.2.2.2.trans ?_⟩
    rw [List.append_assoc]
    rfl

/-- C29 (inside a training call). The choice of the examples and the shuffles of all epochs use pairwise unrelated keys, none of them related to the key that the call
returns: whenever a training call gets to train, its losses are those of the training loop with these draws. -/
theorem C29_training_draws [BufNum F] (nEpochs : Nat) (k : Key) : ∃ (ck : Key) (pk : List Key) (out : Key), Unrelated (out :: ck :: pk) ∧ (∀ a ∈ out :: ck :: pk, Desc k a) ∧
    pk.length = nEpochs ∧ ∀ (env : Env F D d M O) (s : TrainModel) (h : Heap F D d M O) (r : TrainResult F M O), s.nEpochs = nEpochs → s.plan env k h = .ok r →
      ∃ (m : M) (o : O) (rows : List (Pos F d)), h.res s.modelName = some (.model m) ∧ h.res s.optimizerName = some (.optimizer o) ∧ r.rng = out ∧
        r.losses = (epochsWith env.ops env.big ((env.rng.choice ck rows.length s.nMaxExamples).filterMap (rows[·]?)) s.batchSize
          (pk.map (fun a => env.rng.permutation a ((env.rng.choice ck rows.length s.nMaxExamples).filterMap (rows[·]?)).length))
          (env.ops.setStats m ((env.rng.choice ck rows.length s.nMaxExamples).filterMap (rows[·]?))) o).2.2 := by
  have hout : ∀ j, j < nEpochs → ¬ Desc (trainOut k nEpochs) (stepKey (.child (.child k 0) 1) j) ∧ ¬ Desc (stepKey (.child (.child k 0) 1) j) (trainOut k nEpochs) := by
    intro j hj
    have h0 : Desc (.child (carryKey (.child (.child k 0) 1) j) 0) (trainOut k nEpochs) := by
      rw [← carryKey_succ]; exact desc_carryKey_le _ hj
    exact children_unrelated (by decide : (0 : Nat) ≠ 1) h0 .refl
  refine ⟨.child k 1, (List.range nEpochs).map (stepKey (.child (.child k 0) 1)), trainOut k nEpochs, ?_, ?_, by simp, ?_⟩
  · have hp : ∀ b, Desc (.child (.child k 0) 1) b → Desc (.child k 0) b := fun b hb => desc_trans desc_child_self hb
    refine List.pairwise_cons.2 ⟨?_, List.pairwise_cons.2 ⟨?_, stepKeys_unrelated _ _⟩⟩
    · intro b hb
      rcases List.mem_cons.1 hb with rfl | hb
      · exact children_unrelated (by decide : (0 : Nat) ≠ 1) (hp _ (desc_carryKey _ _)) .refl
      · obtain ⟨j, hj, rfl⟩ := List.mem_map.1 hb
        exact hout j (List.mem_range.1 hj)
    · intro b hb
      obtain ⟨j, -, rfl⟩ := List.mem_map.1 hb
      exact children_unrelated (by decide : (1 : Nat) ≠ 0) .refl (hp _ (desc_stepKey _ j))
  · intro a ha
    have h1 : Desc k (.child (.child k 0) 1) := .child 1 desc_child_self
    rcases List.mem_cons.1 ha with rfl | ha
    · exact desc_trans h1 (desc_carryKey _ _)
    · rcases List.mem_cons.1 ha with rfl | ha
      · exact desc_child_self
      · obtain ⟨j, -, rfl⟩ := List.mem_map.1 ha
        exact desc_trans h1 (desc_stepKey _ j)
  · intro env s h r hn hplan
    subst hn
    simp only [TrainModel.plan, bind, Except.bind, split] at hplan
    revert hplan
    cases hm : h.getModel s.modelName with
    | error _ => intro hr; simp at hr
    | ok m =>
    dsimp only
    cases h.getBuffer s.dataName with
    | error _ => intro hr; simp at hr
    | ok b =>
    dsimp only
    cases ho : h.getOptimizer s.optimizerName with
    | error _ => intro hr; simp at hr
    | ok o =>
    dsimp only
    have hm' : h.res s.modelName = some (.model m) := by
      revert hm
      simp only [Heap.getModel, Heap.get]
      cases h.res s.modelName with
      | none => simp
      | some r => cases r <;> simp
    have ho' : h.res s.optimizerName = some (.optimizer o) := by
      revert ho
      simp only [Heap.getOptimizer, Heap.get]
      cases h.res s.optimizerName with
      | none => simp
      | some r => cases r <;> simp
    split
    · split
      · rename_i nc ns dd hsh hdd
        cases trainingRows (d := d) b.data nc ns s.historyWindow with
        | error _ => intro hr; simp at hr
        | ok rows =>
          dsimp only
          split
          · intro hr; simp at hr
          · intro hr
            refine ⟨m, o, rows, hm', ho', ?_⟩
            generalize (env.rng.choice (.child k 1) rows.length s.nMaxExamples).filterMap (rows[·]?) = chosen at hr ⊢
            unfold train at hr
            split at hr
            · simp at hr
            · simp only [Except.ok.injEq] at hr
              subst hr
              have := trainLoop_with env.rng env.ops env.big chosen s.batchSize s.nEpochs (trainInit env.ops env.big (.child (.child k 0) 1) m o chosen)
              dsimp only at this
              refine ⟨this.1, this.2.2.2.trans ?_⟩
              rw [List.map_map]
              rfl
      · intro hr; simp at hr
    · intro hr; simp at hr

/-- C29 (inside a tempering call). The moves of chain `c` at temperature `r` use the key `mk c r` and the exchanges of chain `c` the key `xk c`; all these keys and the key
the call returns are pairwise unrelated. -/
theorem C29_temper_draws [BufNum F] (k : Key) : ∃ (mk : Nat → Nat → Key) (xk : Nat → Key) (out : Key),
    (∀ c r c' r', (c, r) ≠ (c', r') → ¬ Desc (mk c r) (mk c' r')) ∧ (∀ c c', c ≠ c' → ¬ Desc (xk c) (xk c')) ∧
    (∀ c r c', ¬ Desc (mk c r) (xk c') ∧ ¬ Desc (xk c') (mk c r)) ∧ (∀ c r, ¬ Desc (mk c r) out ∧ ¬ Desc out (mk c r)) ∧
    (∀ c, ¬ Desc (xk c) out ∧ ¬ Desc out (xk c)) ∧ (∀ c r, Desc k (mk c r)) ∧ (∀ c, Desc k (xk c)) ∧
    ∀ (env : Env F D d M O) (s : ParallelTempering) (xs : List (Pos F d)) (data : Data D) (h : Heap F D d M O)
      (m : Nat) (P T : String) (pb tb : Buffer F) (K : LocalKernel F D d) (l : TemperedPDF F D d) (v : SVal),
      TemperSite s h env.rng xs.length m P T pb tb K l v → ∃ p, s.plan env k xs data h = .ok p ∧ p.outKey = out ∧
        ∀ (c : Nat) (x : Pos F d), xs[c]? = some x → p.positions[c]? = some
          (exchange env.rng l data (ladder tb m) (xk c) ((List.range (m + 1)).map (fun r =>
            individualStep K l data s.nSteps (mk c r) (if r = 0 then x else row3 pb.data c (r - 1)) (tb.data.get [r])))).1.positions := by
  have q01 : ∀ i, Desc (.child (.child k 0) i) (.child (.child k 0) i) := fun _ => .refl
  have m1 : ∀ c r, Desc (.child (.child k 0) 1) (.child (.child (.child (.child k 0) 1) c) r) := fun c r => .child r desc_child_self
  have x0 : ∀ c, Desc (.child (.child k 0) 0) (.child (.child (.child (.child k 0) 0) 1) c) := fun c => .child c desc_child_self
  refine ⟨fun c r => .child (.child (.child (.child k 0) 1) c) r, fun c => .child (.child (.child (.child k 0) 0) 1) c, .child (.child (.child k 0) 0) 0,
    ?_, ?_, ?_, ?_, ?_, ?_, ?_, ?_⟩
  · intro c r c' r' hne
    by_cases hc : c = c'
    · subst hc
      have hr : r ≠ r' := fun h => hne (by rw [h])
      exact (children_unrelated hr .refl .refl).1
    · exact (children_unrelated hc desc_child_self desc_child_self).1
  · intro c c' hc
    exact (children_unrelated hc .refl .refl).1
  · intro c r c'
    exact children_unrelated (by decide : (1 : Nat) ≠ 0) (m1 c r) (x0 c')
  · intro c r
    exact children_unrelated (by decide : (1 : Nat) ≠ 0) (m1 c r) desc_child_self
  · intro c
    exact children_unrelated (by decide : (1 : Nat) ≠ 0) desc_child_self .refl
  · intro c r
    exact desc_trans (.child 1 desc_child_self) (m1 c r)
  · intro c
    exact desc_trans (.child 0 desc_child_self) (x0 c)
  · intro env s xs data h m P T pb tb K l v site
    refine ⟨_, plan_of_site env s k xs data h m P T pb tb K l v site, rfl, ?_⟩
    intro c x hx
    simp only [temperedWalkers, List.getElem?_map, List.getElem?_zipIdx, hx, Option.map_some, Nat.zero_add]
    congr 2
    apply congrArg (fun z => (exchange env.rng l data (ladder tb m) (Key.child (Key.child (Key.child (Key.child k 0) 0) 1) c) z).1)
    apply List.ext_getElem?
    intro r
    simp only [ensembleStep, splitN, ladder, List.length_cons, List.length_map, List.length_range, List.getElem?_map, List.getElem?_zip_eq_some, List.zip, List.getElem?_zipWith]
    by_cases hr : r < m + 1
    · cases r with
      | zero => simp
      | succ r => simp [show r < m by omega]
    · simp [show ¬ r < m + 1 from hr, hr]

end FlowMC
