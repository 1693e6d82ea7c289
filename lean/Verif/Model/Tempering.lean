import Verif.Model.Kernels
/-
Model of the numerical core of /repo/src/flowMC/strategy/parallel_tempering.py.
The strategy call itself (resources) is in `Model/Strategies.lean`.
-/
namespace FlowMC

variable {F D : Type} {d : Nat}

/-- kernel/base.py `ProposalBase.kernel`: a local kernel as the step strategies use it: key, position, log-prob, target, data. -/
abbrev LocalKernel (F D : Type) (d : Nat) :=
  Key → Pos F d → F → Target F D d → Data D → StepOut F d

/-- parallel_tempering.py:190-203 / take_steps.py:156-162: split the carried key, use the second half for
the kernel. -/
def localBody (K : LocalKernel F D d) (t : Target F D d) (data : Data D)
    (s : Key × Pos F d × F) : (Key × Pos F d × F) × StepOut F d :=
  let ks := split s.1
  let o := K ks.2 s.2.1 s.2.2 t data
  ((ks.1, o.pos, o.logp), o)

/-- parallel_tempering.py:235-248: `n` kernel steps at one temperature; returns the last
position. -/
def individualStep [One F] [Div F] [Mul F] [Add F] (K : LocalKernel F D d) (l : TemperedPDF F D d)
    (data : Data D) (n : Nat) (k : Key) (x : Pos F d) (T : F) : Pos F d :=
  let t := l.tempered T
  (scanN (localBody K t data) n (k, x, t.val x data)).1.2.1

/-- parallel_tempering.py:283-289: one key per temperature, `vmap` over temperatures. -/
def ensembleStep [One F] [Div F] [Mul F] [Add F] (K : LocalKernel F D d) (l : TemperedPDF F D d)
    (data : Data D) (n : Nat) (k : Key) (xs : List (Pos F d)) (Ts : List F) : List (Pos F d) :=
  ((splitN k xs.length).zip (xs.zip Ts)).map (fun a => individualStep K l data n a.1 a.2.1 a.2.2)

/-- Exchange two neighbours `i`, `i+1` of a list: `flip(dynamic_slice(xs, i, 2))` written back at `i`
(parallel_tempering.py:324-334). -/
def swapAt {α : Type} (i : Nat) (xs : List α) : List α :=
  match xs[i]?, xs[i + 1]? with
  | some a, some b => (xs.set i b).set (i + 1) a
  | _, _ => xs

/-- parallel_tempering.py:291-356: carry of the exchange scan (the key and the index are kept apart). -/
structure ExchCarry (F : Type) (d : Nat) where
  positions : List (Pos F d)
  logps : List F

/-- parallel_tempering.py:319-321: the log acceptance ratio of exchanging `i` and `i+1`. -/
def exchRatio [Zero F] [One F] [Div F] [Sub F] [Mul F] (Ts : List F) (lps : List F) (i : Nat) : F :=
  (1 / Ts.getD (i + 1) 0 - 1 / Ts.getD i 0) * (lps.getD i 0 - lps.getD (i + 1) 0)

/-- parallel_tempering.py:316-356 with an explicit uniform draw. -/
def exchBody [Zero F] [One F] [Div F] [Sub F] [Mul F] [Transc F] [FCmp F] (Ts : List F) (u : F) (i : Nat)
    (c : ExchCarry F d) : ExchCarry F d × Bool :=
  let acc := acceptTest u (exchRatio Ts c.logps i)
  ({ positions := if acc then swapAt i c.positions else c.positions
     logps := if acc then swapAt i c.logps else c.logps }, acc)

/-- parallel_tempering.py:391-397: the scan over `idx = 0 … n_temps-2`, splitting the key each time. -/
def exchScan [Zero F] [One F] [Div F] [Sub F] [Mul F] [Transc F] [FCmp F] (rng : Rng F) (Ts : List F) :
    Nat → Nat → Key → ExchCarry F d → ExchCarry F d × List Bool
  | 0, _, _, c => (c, [])
  | n + 1, i, k, c =>
    let ks := split k
    let r := exchBody Ts (rng.uniform ks.2) i c
    let rest := exchScan rng Ts n (i + 1) ks.1 r.1
    (rest.1, r.2 :: rest.2)

/-- parallel_tempering.py:358-398 `_exchange`: the log-likelihoods are those of the untempered
object (`TemperedPDF.__call__`). -/
def exchange [Zero F] [One F] [Div F] [Sub F] [Mul F] [Transc F] [FCmp F] (rng : Rng F)
    (l : TemperedPDF F D d) (data : Data D) (Ts : List F) (k : Key) (xs : List (Pos F d)) :
    ExchCarry F d × List Bool :=
  exchScan rng Ts (xs.length - 1) 0 k ⟨xs, xs.map (fun x => l.call x data)⟩

/-- parallel_tempering.py:423: `jnp.mean(do_accept, axis=0)[i]`; `accs` has one list per chain. -/
def accRate [NatCast F] [Div F] (accs : List (List Bool)) (i : Nat) : F :=
  (((accs.filter (fun a => a.getD i false)).length : Nat) : F) / ((accs.length : Nat) : F)

/-- parallel_tempering.py:424-426: `damping_factor[i]`. -/
def damping [NatCast F] [Div F] [Mul F] [Sub F] (accs : List (List Bool)) (i : Nat) : F :=
  ((100 : Nat) : F) / ((accs.length : Nat) : F) * (accRate accs i - accRate accs (i + 1))

/-- parallel_tempering.py:427-433: the loop `for i in range(1, n_temps - 1)`; `prev` is
`new_temperatures[i-1]`, `told`/`ts` the old temperatures from `i-1` on. -/
def adaptLoop [NatCast F] [Div F] [Mul F] [Sub F] [Add F] [Transc F] (accs : List (List Bool)) :
    Nat → F → F → List F → List F
  | _, _, _, [] => []
  | _, _, _, [tlast] => [tlast]
  | i, prev, told, t :: t' :: ts =>
    let new := prev + (t - told) * Transc.exp (damping accs (i - 1))
    new :: adaptLoop accs (i + 1) new t (t' :: ts)

/-- parallel_tempering.py:400-436 `_adapt_temperature`. -/
def adaptTemperature [NatCast F] [Div F] [Mul F] [Sub F] [Add F] [Transc F] (Ts : List F)
    (accs : List (List Bool)) : List F :=
  match Ts with
  | [] => []
  | t0 :: ts => t0 :: adaptLoop accs 1 t0 t0 ts

end FlowMC
