/-
Fragment of JAX / NumPy / Python semantics used by flowMC (no code of /repo is modelled
in this file; it is the substrate on which the model is written).
-/
namespace FlowMC

/-- Python exceptions the modelled code can raise. -/
inductive Err
  | valueError | keyError | typeError | assertionError | indexError | zeroDivision
  deriving DecidableEq, Repr

/-- `jax.random` keys as the free tree generated by `jax.random.split`.
`root s` is `jax.random.key(s)`; `child k i` is the `i`-th key of `split(k, n)`.
Conservative choice: the child depends on its index only (as in JAX's partitionable
threefry), so `split(k)[0]` and `split(k, n)[0]` are the *same* key. -/
inductive Key
  | root (seed : Nat)
  | child (k : Key) (i : Nat)
  deriving DecidableEq, Repr

/-- `jax.random.split(key)` (two children). -/
def split (k : Key) : Key × Key := (.child k 0, .child k 1)

/-- `jax.random.split(key, n)`. -/
def splitN (k : Key) (n : Nat) : List Key := (List.range n).map (Key.child k)

/-- Transcendental functions used by the code. -/
class Transc (F : Type) where
  exp : F → F
  log : F → F
  sqrt : F → F
  tanh : F → F
  pi : F

/-- The boolean comparison `<` of arrays (for IEEE numbers it is false when an argument is NaN). -/
class FCmp (F : Type) where
  blt : F → F → Bool

/-- Special values needed by buffers: `-inf`, `isfinite` and `astype(float)` of a bool. -/
class BufNum (F : Type) where
  negInf : F
  isFinite : F → Bool
  ofBool : Bool → F

/-- A pseudo random generator: what `jax.random.normal(k, (n,))`, `jax.random.uniform(k)`,
`jax.random.permutation(k, n)` and `jax.random.choice(k, arange(n), (m,))` return. -/
structure Rng (F : Type) where
  normal : Key → (n : Nat) → Fin n → F
  uniform : Key → F
  permutation : Key → Nat → List Nat
  choice : Key → Nat → Nat → List Nat

/-- What the documentation of `jax.random.permutation` / `choice` promises. -/
structure Rng.Lawful {F : Type} (r : Rng F) : Prop where
  perm : ∀ k n, (r.permutation k n).Perm (List.range n)
  choice_length : ∀ k n m, 0 < n → (r.choice k n m).length = m
  choice_lt : ∀ k n m, 0 < n → ∀ i ∈ r.choice k n m, i < n

/-- `xs[::t]` for a python step `t ≥ 1`: elements `0, t, 2t, …`. -/
def everyNth {α : Type} (t : Nat) (xs : List α) : List α :=
  (List.range ((xs.length + t - 1) / t)).filterMap (fun j => xs[j * t]?)

/-- `xs[-h:]`; for `h = 0` python reads this as `xs[0:]`, i.e. everything. -/
def takeLast {α : Type} (h : Nat) (xs : List α) : List α :=
  if h = 0 then xs else xs.drop (xs.length - h)

/-- `jax.lax.scan(f, init, xs)`: threads the carry, collects the outputs. -/
def scan {σ α β : Type} (f : σ → α → σ × β) : σ → List α → σ × List β
  | s, [] => (s, [])
  | s, x :: xs =>
    let r := f s x
    let rest := scan f r.1 xs
    (rest.1, r.2 :: rest.2)

/-- `jax.lax.scan(f, init, length = n)` with no inputs. -/
def scanN {σ β : Type} (f : σ → σ × β) : Nat → σ → σ × List β
  | 0, s => (s, [])
  | n + 1, s =>
    let r := f s
    let rest := scanN f n r.1
    (rest.1, r.2 :: rest.2)

/-- `x.sum()` of a vector (left fold; the reduction order of XLA is not modelled). -/
def sumFin {F : Type} [Zero F] [Add F] : {n : Nat} → (Fin n → F) → F
  | 0, _ => 0
  | _ + 1, f => f 0 + sumFin (fun i => f i.succ)

/-- `⌈a / b⌉` as `math.ceil(a / b)` for positive `b`. -/
def ceilDiv' (a b : Nat) : Nat := (a + b - 1) / b

end FlowMC
