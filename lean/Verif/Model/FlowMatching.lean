import Verif.Model.RQSpline
/-
Model of /repo/src/flowMC/resource/model/flowmatching/base.py: Solver, CondOTScheduler, Path, FlowMatchingModel.sample / log_prob / loss_fn.  The numerical ODE solver
(`diffrax.diffeqsolve`) is a parameter; statements assume it returns exact solutions.
-/
namespace FlowMC
noncomputable section

/-- What `diffeqsolve` returns in base.py:41-51 and base.py:77-88: `forward y0` is the solution at `t = 1` that starts from `y0` at `t = 0`; `backward y1` is the
solution at `t = 0` of the augmented system `(velocity, divergence)` that starts from `(y1, 0)` at `t = 1`. -/
structure OdeSolver (d : Nat) where
  forward : Pos ℝ d → Pos ℝ d
  backward : Pos ℝ d → Pos ℝ d × ℝ

/-- base.py:26-55 `Solver.sample`. -/
def OdeSolver.sample {d : Nat} (s : OdeSolver d) (rng : Rng ℝ) (k : Key) (n : Nat) : List (Pos ℝ d) :=
  (List.finRange n).map (fun i => s.forward (normalRow rng k n d i))

/-- base.py:57-98 `Solver.log_prob`: the base log-density is evaluated at `x1`, the argument, although `x0` has been computed. -/
def OdeSolver.logProb {d : Nat} (s : OdeSolver d) (x1 : Pos ℝ d) : ℝ :=
  let r := s.backward x1
  isoNormLogpdf x1 (fun _ => 0) 1 + r.2

/-- base.py:108-115 `CondOTScheduler`: `alpha_t, d_alpha_t, sigma_t, d_sigma_t`. -/
def condOT (t : ℝ) : ℝ × ℝ × ℝ × ℝ := (t, 1, 1 - t, -1)

/-- base.py:125-130 `Path.sample` (elementwise on arrays). -/
def pathSample {d : Nat} (sched : ℝ → ℝ × ℝ × ℝ × ℝ) (x0 x1 : Pos ℝ d) (t : ℝ) : Pos ℝ d × Pos ℝ d :=
  let s := sched t
  (fun i => s.2.2.1 * x0 i + s.1 * x1 i, fun i => s.2.2.2 * x0 i + s.2.1 * x1 i)

/-- base.py:133-175 `FlowMatchingModel`: the velocity network as a function of position and time, the solver, and the data statistics. -/
structure FlowMatching (d : Nat) where
  net : Pos ℝ d → ℝ → Pos ℝ d
  solver : OdeSolver d
  dataMean : Pos ℝ d
  dataVar : Pos ℝ d

/-- base.py:177-184 `FlowMatchingModel.sample`: the second half of the split key is used. -/
def FlowMatching.sample {d : Nat} (m : FlowMatching d) (rng : Rng ℝ) (k : Key) (n : Nat) : List (Pos ℝ d) :=
  (m.solver.sample rng (split k).2 n).map (unwhiten m.dataMean m.dataVar)

/-- base.py:186-190 `FlowMatchingModel.log_prob`. -/
def FlowMatching.logProb {d : Nat} (m : FlowMatching d) (x : Pos ℝ d) : ℝ :=
  m.solver.logProb (whiten m.dataMean m.dataVar x) + -sumFin (fun i => Real.log (Real.sqrt (m.dataVar i)))

/-- base.py:198-209 `loss_fn`: mean over all entries of the squared difference between the network and the target velocity. -/
def FlowMatching.loss {d : Nat} (m : FlowMatching d) (batch : List (Pos ℝ d × ℝ × Pos ℝ d)) : ℝ :=
  (batch.map (fun b => sumFin (fun i => (m.net b.1 b.2.1 i - b.2.2 i) ^ 2))).sum / (batch.length * d)

/-- base.py:243-262: what one batch of `(x0, x1, t)` contributes: `x1` is whitened, then the path is sampled. -/
def FlowMatching.batch {d : Nat} (m : FlowMatching d) (sched : ℝ → ℝ × ℝ × ℝ × ℝ) (data : List (Pos ℝ d × Pos ℝ d × ℝ)) : List (Pos ℝ d × ℝ × Pos ℝ d) :=
  data.map (fun b => let r := pathSample sched b.1 (whiten m.dataMean m.dataVar b.2.1) b.2.2; (r.1, b.2.2, r.2))

end
end FlowMC
