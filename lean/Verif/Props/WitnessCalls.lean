import Verif.Props.Buffers
import Verif.Props.SamplerProps
import Verif.Props.StepCall
import Verif.Props.StepLog
import Verif.Props.Special
import Verif.Props.Keys
import Verif.Props.SecondRun
import Verif.Props.ProductionExamples
/-
Non-vacuity of the theorems about buffers, states, the sampler object and single calls of the step strategies.  Every `example` applies a theorem to concrete data;
its statement is the theorem's conclusion at that data.
-/
set_option linter.unusedSectionVars false
namespace FlowMC
open Spec
namespace Toy
open XR

/-! C01–C06 -/
/-- two rows written at row 3 of a buffer with five rows of two chains -/
example := C01_negative_start (F := Int) (Buffer.new "P" [2, 5, 3] 1) ⟨[2, 2, 3], fun i => i.sum⟩ 3 2 (by decide) rfl (by decide) (by decide) (by decide)
example := C01_update_window (F := Int) (Buffer.new "P" [2, 5, 3] 1) ⟨[2, 2, 3], fun i => i.sum⟩ 3 2 (by decide) rfl (by decide)
example := C01_reject (F := Int) (Buffer.new "P" [2, 5, 3] 1) ⟨[3, 2, 3], fun i => i.sum⟩ 3 (by decide)
example := C02_append_log (F := Int) "P" [2, 6] 1 [(2, ⟨[2, 2], fun i => i.sum⟩), (3, ⟨[2, 3], fun _ => 7⟩)] (by decide) (by
  intro p hp
  simp only [List.mem_cons, List.not_mem_nil, or_false] at hp
  rcases hp with rfl | rfl <;> rfl) (by decide)
/-- an overflowing write -/
example := C03_clamp_partial (F := Int) (Buffer.new "P" [2, 5, 3] 1) ⟨[2, 2, 3], fun i => i.sum⟩ 4 2 (by decide) rfl (by decide)
example := C04_roundtrip_default ({ (Buffer.new "P" [2, 5] 0 : Buffer Int) with data := ⟨[2, 5], fun i => i.sum⟩ }) "dir/" "dir/P.npz" (archiveOf_npzPath "dir/P") (fun _ => none) rfl rfl
example := C05_distinct_keys (State.new fun _ => none) ["a", "b", "c"] [.int 1, .bool true] (by decide) 1 (by decide) (by decide)
example := C05_other_keys (State.new fun k => if k = "d" then some (.int 4) else none) ["a", "b", "c"] [.int 1, .bool true] "d" (by decide)
example := C05_update_state_strategy (F := Int) (D := Unit) (d := 1) (M := Int) (O := Int) { stateName := "state", keys := ["p"], values := [.str "Q"] } (.root 0) start (heap 6) _ rfl
example := C05_update_state_bad (F := Int) (D := Unit) (d := 1) (M := Int) (O := Int) { stateName := "P", keys := ["p"], values := [.str "Q"] } (.root 0) start (heap 6)
  (by intro st; simp [heap])

/-! C07–C10 -/
example := C07_bundle (V := Unit) 1 2 (.root 0) none (some (malaBundle cfg).strategies) none (ptBundle cfg ptCfg) [] (.inl rfl)
example := C07_neither (V := Unit) (F := Int) (D := Unit) (d := 1) (M := Int) (O := Int) 1 2 (.root 0) (some (malaBundle cfg).resources) none (some ["local_stepper"]) [] (.inr rfl)

/-- A sampler whose order names an unknown strategy after two good ones. -/
def broken : Sampler Int Unit 1 Int Int Unit :=
  { nDim := 1, nChains := 2, rngKey := .root 1, heap := ⟨(malaBundle cfg).resources, fun _ => 0⟩, strategies := (malaBundle cfg).strategies.lookup,
    strategyOrder := some ["local_stepper", "update_global_step", "no_such_strategy"], attrs := fun _ => none }
example := C08_no_order env { broken with strategyOrder := none } rfl (.mat start) data
example := C08_sample env broken _ rfl (.mat start) data
example := C09_sample env broken _ rfl (.mat start) data .valueError
example : ∃ s', broken.sample env (.mat start) data = (.error .valueError, s') := by
  have : (match (broken.sample env (.mat start) data).1 with | .error e => decide (e = .valueError) | .ok _ => false) = true := by decide +kernel
  cases h : broken.sample env (.mat start) data with
  | mk r s' =>
    rw [h] at this
    cases r with
    | ok a => simp at this
    | error e => simp at this; exact ⟨s', by rw [this]⟩
example := C10_kwargs (F := Int) (D := Unit) (d := 1) (M := Int) (O := Int) 1 2 (.root 0) none none none (some (malaBundle cfg)) [("verbose", 1), ("n_dim", 7)] _ rfl

/-- a file written by something other than `save_resource` -/
example := C06_swapped_partial (F := Int) (fun p => if p = "f.npz" then some ⟨.string "n", .array ⟨[1], fun _ => 3⟩⟩ else none) "f.npz" ⟨.string "n", .array ⟨[1], fun _ => 3⟩⟩
  ⟨.string "n", .array ⟨[1], fun _ => 3⟩⟩ rfl rfl

/-! C13–C20 and C29: two chains, five steps thinned by two -/
theorem points (T n t : Nat) : PointsAt (heap T) (stepper n t) "P" "L" "A" := ⟨_, "p", "l", "a", [], rfl, rfl, rfl, rfl, rfl⟩
theorem recs (T : Nat) : Recorders (heap T) start.length T "P" "L" "A" (Buffer.new "P" [2, T, 1] 1) (Buffer.new "L" [2, T] 1) (Buffer.new "A" [2, T] 1) :=
  ⟨rfl, rfl, rfl, rfl, rfl, rfl, rfl, rfl, rfl, by decide⟩
theorem serial (e : Env Int Unit 1 Int Int) (T n t : Nat) : SerialSite e (stepper n t) (heap T) (.grw 1) (fun k x lp t data => grwKernel e.rng 1 k x lp t data) target :=
  ⟨rfl, rfl, rfl, ⟨_, rfl, rfl⟩⟩
theorem env_lawful : env.ops.Lawful := fun _ _ _ => by simp [env, ops]

example := C14_logp_local (F := Int) (M := Int) rng (.mala 1) _ rfl (by simp) target data 5 (.root 0) (fun _ => 3)
example := C14_recorded env (stepper 5 2) (.root 0) start data (heap 6) 6 "P" "L" "A" _ _ _ (points 6 5 2) (recs 6) (by decide) _ _ _ (serial env 6 5 2) (by decide) (by decide) (by simp)
example := C15_logp_nf env env_lawful 7 2 (by decide) target (fun _ _ _ _ => rfl) data 5 (.root 0) (fun _ => 3)
example := C15_recorded env env_lawful { stepper 5 2 with kind := .group, kernelName := "flow" } (.root 0) start data (heap 6) 6 "P" "L" "A" _ _ _
  ⟨_, "p", "l", "a", [], rfl, rfl, rfl, rfl, rfl⟩ (recs 6) (by decide) 7 2 target (fun _ _ _ _ => rfl) ⟨rfl, rfl, ⟨_, rfl, rfl⟩⟩ (by decide) (by decide) (by decide)
example := C16_serial_rows (F := Int) (M := Int) rng (.mala 1) _ rfl target data 5 (.root 0) (fun _ => 3) 2
example : ∃ rows, groupSample env 7 2 target data 5 (.root 0) (fun _ => 3) = .ok rows ∧
    ∀ j o, rows[j]? = some o → o.acc = false → posBefore (fun _ => 3) rows j = some o.pos := by
  obtain ⟨rows, h, -⟩ := C15_logp_nf env env_lawful 7 2 (by decide) target (fun _ _ _ _ => rfl) data 5 (.root 0) (fun _ => 3)
  exact ⟨rows, h, fun j o ho ha => C16_nf_rows env 7 2 target data 5 (.root 0) _ rows h j o ho ha⟩
example := C16_recorded env (stepper 5 1) (.root 0) start data (heap 6) 6 "P" "L" "A" _ _ _ (points 6 5 1) (recs 6) (by decide) _ _ _ (serial env 6 5 1) rfl (by decide)
example := C17_recorded env (stepper 5 2) (.root 0) start data (heap 6) 6 "P" "L" "A" _ _ _ (points 6 5 2) (recs 6) (by decide) _ _ _ (serial env 6 5 2) (by decide) (by decide)
example := C17_thinned_rows 3 (by decide) [0, 1, 2, 3, 4, 5, 6]
example := C17_returned_row (F := Int) (d := 1) 2 3 (by decide) (by decide) [[⟨fun _ => 1, 1, true⟩, ⟨fun _ => 2, 2, true⟩, ⟨fun _ => 3, 3, true⟩]] (by decide)
example := C27_batch_bound 10 4 (by decide) (by decide)
example := C27_count ops (fun _ _ _ => by simp [ops]) 7 4 (by decide) (.root 0) 10
example := C27_flow_logprob ops 7 4 (.root 0) 10
example := C27_target_logprob target data 2 (by decide) [fun _ => 1, fun _ => 2, fun _ => 3, fun _ => 4, fun _ => 5]

/-- The effect of one call. -/
theorem call (T n t : Nat) (ht : 0 < t) (hn : 0 < n) (hfit : ceilDiv' n t ≤ T) (k : Key) : ∃ ys h1 rows, (stepper n t).run env k start data (heap T) = (.ok (Key.child k 0, ys), h1) ∧
    StepEffect (stepper n t) (heap T) h1 2 T "P" "L" "A" (Buffer.new "P" [2, T, 1] 1) (Buffer.new "L" [2, T] 1) (Buffer.new "A" [2, T] 1) rows ∧ ys.length = 2 := by
  obtain ⟨ys, h1, a, b, c, -⟩ := C19_success env (stepper n t) k start data (heap T) T "P" "L" "A" _ _ _ (points T n t) (recs T) (by simpa [heap, stepper] using hfit) _ _ rfl rfl _ rfl _
    (forall2_zip_splitN _ _ _ _ fun _ _ => rfl) (by
      intro r hr
      simp only [List.mem_map] at hr
      obtain ⟨a, -, rfl⟩ := hr
      exact serialSample_length _ _ _ _ _ _) ht hn
  exact ⟨ys, h1, _, a, b, c⟩
/-- Two calls one after the other: the hypotheses of C18 hold of them. -/
theorem two_calls (n t : Nat) (ht : 0 < t) (hn : 0 < n) (hfit : 2 * ceilDiv' n t ≤ 20) : ∃ h1 h2 rows rows', ∃ bP1 bL1 bA1 : Buffer Int,
    StepEffect (stepper n t) (heap 20) h1 2 20 "P" "L" "A" (Buffer.new "P" [2, 20, 1] 1) (Buffer.new "L" [2, 20] 1) (Buffer.new "A" [2, 20] 1) rows ∧
    Recorders h1 2 20 "P" "L" "A" bP1 bL1 bA1 ∧ StepEffect (stepper n t) h1 h2 2 20 "P" "L" "A" bP1 bL1 bA1 rows' ∧
    (∃ k ys, (stepper n t).run env (.root 0) start data (heap 20) = (.ok (k, ys), h1) ∧ ∃ k' ys', (stepper n t).run env k ys data h1 = (.ok (k', ys'), h2)) := by
  obtain ⟨ys, h1, rows, e, b, c⟩ := call 20 n t ht hn (by omega) (.root 0)
  obtain ⟨bP1, p1, p2⟩ := b.pos
  obtain ⟨bL1, l1, l2⟩ := b.logp
  obtain ⟨bA1, a1, a2⟩ := b.acc
  have r1 : Recorders h1 2 20 "P" "L" "A" bP1 bL1 bA1 :=
    ⟨p1, l1, a1, by rw [p2.same.2.2.2]; rfl, by rw [l2.same.2.2.2]; rfl, by rw [a2.same.2.2.2]; rfl, by rw [p2.same.2.2.1]; rfl, by rw [l2.same.2.2.1]; rfl,
      by rw [a2.same.2.2.1]; rfl, by decide⟩
  have hfr : ∀ m, m ≠ "P" → m ≠ "L" → m ≠ "A" → h1.res m = (heap 20).res m := b.frame
  have hpos : h1.pos (stepper n t).ident = n / t := by rw [b.cursor]; simp [heap, stepper]
  have hle : n / t ≤ ceilDiv' n t := by unfold ceilDiv'; exact Nat.div_le_div_right (by omega)
  obtain ⟨ys2, h2, e2, b2, -⟩ := C19_success env (stepper n t) (.child (.root 0) 0) ys data h1 20 "P" "L" "A" bP1 bL1 bA1
    ⟨_, "p", "l", "a", [], (hfr "state" (by decide) (by decide) (by decide)).trans rfl, rfl, rfl, rfl, rfl⟩ (by rw [c]; exact r1)
    (by rw [hpos]; simp only [stepper]; omega) _ _ ((hfr "kernel" (by decide) (by decide) (by decide)).trans rfl) ((hfr "logpdf" (by decide) (by decide) (by decide)).trans rfl) _ rfl _
    (forall2_zip_splitN _ _ _ _ fun _ _ => rfl) (by
      intro r hr
      simp only [List.mem_map] at hr
      obtain ⟨a, -, rfl⟩ := hr
      exact serialSample_length _ _ _ _ _ _) ht hn
  rw [c] at b2
  exact ⟨h1, h2, rows, _, bP1, bL1, bA1, b, r1, b2, _, _, e, _, _, e2⟩
/-- thinning divides: nothing is lost -/
example := (two_calls 6 2 (by decide) (by decide) (by decide)).imp fun h1 h => h.imp fun h2 h => h.imp fun rows h => h.imp fun rows' h => h.imp fun bP1 h => h.imp fun bL1 h => h.imp fun bA1 h =>
  C18_no_row_lost_partial (stepper 6 2) (heap 20) h1 h2 2 20 "P" "L" "A" _ _ _ bP1 bL1 bA1 rows rows' h.1 h.2.1 h.2.2.1 (by decide) (by decide) (by decide) 1 2 (by decide) (by decide)
/-- it does not: the second call overwrites a row of the first -/
example := (two_calls 5 2 (by decide) (by decide) (by decide)).imp fun h1 h => h.imp fun h2 h => h.imp fun rows h => h.imp fun rows' h => h.imp fun bP1 h => h.imp fun bL1 h => h.imp fun bA1 h =>
  C18_overwrites (stepper 5 2) (heap 20) h1 h2 2 20 "P" "L" "A" _ _ _ bP1 bL1 bA1 rows rows' h.1 h.2.2.1 (by decide) (by decide) (by decide) 1 (by decide)
example := C19_bad_site env { stepper 5 2 with kernelName := "P" } (.root 0) start data (heap 6) (.inr (.inr (.inl (by intro kr; simp [heap]))))
/-- three calls of four steps thinned by two -/
example := C02_calls env (stepper 4 2) (.root 0) start data (heap 6) 6 "P" "L" "A" _ _ _ (points 6 4 2) (recs 6) _ _ rfl rfl (by intro b; simp) (by intro b; simp) _ rfl
  (fun a x => ⟨_, rfl, serialSample_length _ _ _ _ _ _⟩) (by decide) (by decide) (by decide) 3 (by decide)

/-- A second source of random numbers, that draws 1 like the first at the keys of `S` and 5 elsewhere. -/
noncomputable def envOff (S : Key → Prop) : Env Int Unit 1 Int Int :=
  open Classical in { env with rng := { rng with normal := fun k _ _ => if S k then 1 else 5 } }
theorem envOff_agree (S : Key → Prop) : AgreeOn S env (envOff S) :=
  ⟨fun k hk n => by simp [envOff, env, rng, hk], fun _ _ => rfl, fun _ _ _ => rfl, fun _ _ _ _ => rfl, fun _ _ _ _ => rfl, rfl, rfl, rfl, rfl⟩
example (S : Key → Prop) (k : Key) (h : ¬ S k) : env.rng.normal k 1 ≠ (envOff S).rng.normal k 1 := by
  intro e
  have := congrFun e 0
  simp [env, envOff, rng, h] at this

example := C13_recorded env (envOff (Desc (.child (.child (.root 0) 1) 1))) (stepper 5 2) (.root 0) start [fun _ => 55, fun _ => 100] data (heap 6) 6 "P" "L" "A" _ _ _
  (points 6 5 2) (recs 6) (by decide) _ _ _ _ (serial env 6 5 2) (serial _ 6 5 2) (by decide) (by decide) rfl 1 (by decide) rfl (envOff_agree _)
example := C13_chain_independence env (envOff (Desc (.child (.child (.root 0) 1) 1))) (stepper 5 2) (.root 0) start [fun _ => 55, fun _ => 100] data (heap 6) _ _ rfl rfl 1 rfl (envOff_agree _)
example := C29_kernel env (envOff (Desc (.root 3))) (.mala 1) _ _ rfl rfl (.root 3) (envOff_agree _)
example := C29_takeSteps env (envOff (Between (.root 3) (.child (.root 3) 0))) (stepper 5 2) (.root 3) start data (heap 6) (envOff_agree _)
example := C29_footprint env (envOff _) (.takeSteps (stepper 5 2)) rfl (.root 3) start data (heap 6) (envOff_agree _)
example := C29_footprint env (envOff _) (.trainModel trainer) rfl (.root 3) start data trainHeap (envOff_agree _)
example := C29_footprint env (envOff _) (.parallelTempering temperStrat) rfl (.root 3) start data (temperHeap true) (envOff_agree _)
example := C29_parallelTempering env (envOff _) temperStrat (.root 3) start data (temperHeap true) (envOff_agree _)
example := C29_trainModel env (envOff _) trainer (.root 3) start trainHeap (envOff_agree _)
example := C29_next_key env (.takeSteps (stepper 5 2)) rfl (.root 3) start data (heap 6) _ _ _ rfl
example := C29_step_key (fun k x lp t data => grwKernel rng 1 k x lp t data) target data 5 (.root 3) (fun _ => 0) 3 (by decide)
example := fun a => C29_steps_disjoint (.root 3) a 1 4 (by decide)
example := fun a => C29_chains_disjoint (.root 3) a 1 4 (by decide)

/-! C20: a density that is `-inf` or NaN somewhere -/
example := C20_chain (F := XR) (M := Unit) xrEnv.rng (.mala (fin (1 / 10))) _ rfl xrTarget ⟨(), none⟩ 9 (.root 0) (fun _ => fin 3) (by simp only [xrTarget]; rintro (h | h) <;> cases h)
example := C20_chain_or_start (F := XR) (M := Unit) xrEnv.rng (.mala (fin (1 / 10))) _ rfl xrTarget ⟨(), none⟩ 9 (.root 0) (fun _ => pinf)
example := C20_nf_chain xrEnv (fun m k n => by simp [xrEnv]) () 4 (by decide) xrTarget (fun _ _ _ _ => rfl) ⟨(), none⟩ 9 (.root 0) (fun _ => fin 3)
  (by simp only [xrTarget]; rintro (h | h) <;> cases h)
example : ∃ rows, groupSample xrEnv () 4 xrTarget ⟨(), none⟩ 9 (.root 0) (fun _ => pinf) = .ok rows ∧ ∀ o ∈ rows, o.pos = (fun _ => pinf) ∨ ¬ Ieee.Bad (xrTarget.val o.pos ⟨(), none⟩) := by
  have hl : xrEnv.ops.Lawful := fun m k n => by simp [xrEnv]
  obtain ⟨rows, h, -⟩ := C15_logp_nf xrEnv hl () 4 (by decide) xrTarget (fun _ _ _ _ => rfl) ⟨(), none⟩ 9 (.root 0) (fun _ => pinf)
  exact ⟨rows, h, C20_nf_chain_or_start xrEnv hl () 4 (by decide) xrTarget (fun _ _ _ _ => rfl) ⟨(), none⟩ 9 (.root 0) _ rows h⟩
/-- an accepted random-walk step -/
example := C20_kernel (F := XR) (M := Unit) { xrEnv.rng with uniform := fun _ => fin 0 } (.grw (fin 1)) _ rfl (.root 0) (fun _ => fin 0) (fin 0)
  (⟨fun x _ => x 0, fun _ _ _ => fin 1⟩ : Target XR Unit 1) ⟨(), none⟩ (by
    simp [grwKernel, grwStep, acceptTest, grwProposal, xrEnv, Transc.log, FCmp.blt, XR.blt, XR.sub_def, XR.add_def, HMul.hMul, Mul.mul, XR.mul, XR.add, XR.neg])

end Toy
end FlowMC
