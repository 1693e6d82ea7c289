import Verif.Props.Bundles
import Verif.Lemmas.Ideal
import Mathlib.Tactic.Ring
/-
The production loops of the bundle, for an arbitrary property of random positions that the local and the global stepper preserve from the start to every row.
-/
set_option linter.unusedSectionVars false
namespace FlowMC
open Spec

variable {Ω F D M O : Type} {d : ℕ}
variable [Zero F] [One F] [Add F] [Mul F] [Div F] [Sub F] [Neg F] [NatCast F] [Transc F] [FCmp F] [BufNum F]
variable {env : Ω → Env F D d M O}

/-- A property `Q hist S f` of random positions `f` (present in every outcome, determined by the draws in `S`) that have gone through the steps `hist` (latest first;
`true` for a local step, `false` for a flow proposal) — which the steppers of the bundle pass on from the start of a chain to every row of it. -/
structure RowLawsOn (Q : List Bool → Set (Option Key) → (Ω → Option (Pos F d)) → Prop) (env : Ω → Env F D d M O) (c : BundleCfg F D d M O) (data : Data D) (m : Ω → M) (T : Key → Prop) : Prop where
  mono : ∀ h S S' f, S ⊆ S' → Q h S f → Q h S' f
  here : ∀ h S f, Q h S f → ∃ X : Ω → Pos F d, ∀ ω, f ω = some (X ω)
  good : GoodCfg c
  lawful : ∀ ω, (env ω).ops.Lawful
  loc : ∀ a, T a → ∀ h S, Disjoint S (descSet a) → ∀ X : Ω → Pos F d, Q h S (fun ω => some (X ω)) → ∀ j < c.nLocal,
    Q (List.replicate (j + 1) true ++ h) (S ∪ descSet a) (fun ω => ((serialSample (fun k x lp t data => malaKernel (env ω).rng c.stepSize k x lp t data) c.logpdf data c.nLocal a (X ω))[j]?).map (·.pos))
  glob : ∀ a, T a → ∀ h S, Disjoint S (descSet a) → ∀ X : Ω → Pos F d, Q h S (fun ω => some (X ω)) → ∀ rows : Ω → List (StepOut F d),
    (∀ ω, groupSample (env ω) (m ω) c.nfBatch c.logpdf data c.nGlobal a (X ω) = .ok (rows ω)) → ∀ j < c.nGlobal, Q (List.replicate (j + 1) false ++ h) (S ∪ descSet a) (fun ω => ((rows ω)[j]?).map (·.pos))

/-- With all keys descending from `k`. -/
abbrev RowLaws (Q : List Bool → Set (Option Key) → (Ω → Option (Pos F d)) → Prop) (env : Ω → Env F D d M O) (c : BundleCfg F D d M O) (data : Data D) (m : Ω → M) (k : Key) : Prop :=
  RowLawsOn Q env c data m (Desc k)

theorem rowsPerCall_pos {c : BundleCfg F D d M O} (hc : GoodCfg c) (tag : Bool) : 0 < rowsPerCall c tag := by
  cases tag
  · exact Nat.div_pos (Nat.le_of_dvd hc.nGlobal hc.globalDvd) hc.globalThin
  · exact Nat.div_pos (Nat.le_of_dvd hc.nLocal hc.localDvd) hc.localThin

theorem lastRow_law {n : ℕ} {S : Set (Option Key)} {Q : Set (Option Key) → (Ω → Option (Pos F d)) → Prop} (b : Ω → Block F d) (ys : Ω → List (Pos F d)) (hl : ∀ ω, LastRows (b ω) (ys ω)) (hn : 0 < n) (i : ℕ)
    (hlen : ∀ ω, ∀ r ∈ (b ω).rows, r.length = n) (h : Q S (fun ω => (cellOf (b ω).rows i (n - 1)).map (·.pos))) :
    Q S (fun ω => (ys ω)[i]?) := by
  convert h using 2 with ω
  rw [(hl ω).2 i]
  unfold cellOf
  cases hr : (b ω).rows[i]? with
  | none => rfl
  | some r =>
    simp only [Option.bind_some]
    rw [List.getLast?_eq_getElem?, hlen ω r (List.mem_of_getElem? hr)]

variable {Q : List Bool → Set (Option Key) → (Ω → Option (Pos F d)) → Prop} {c : BundleCfg F D d M O} {data : Data D} {m : Ω → M} {k : Key} {T : Key → Prop}

theorem localBlock_law (hE : RowLawsOn Q env c data m T) (k' : Key) (h : List Bool) (S : Set (Option Key)) (hS : Disjoint S (descSet k')) (xs : Ω → List (Pos F d)) (b : Ω → Block F d)
    (ys : Ω → List (Pos F d)) (hb : ∀ ω, LocalBlock (env ω) c data k' (xs ω) (b ω) (ys ω)) (i : ℕ) (hk : T (.child (.child k' 1) i)) (hX : Q h S (fun ω => (xs ω)[i]?)) (j : ℕ) (hj : j < rowsPerCall c true) :
    Q (List.replicate (j * c.localThin + 1) true ++ h) (S ∪ descSet (.child k' 1)) (fun ω => (cellOf (b ω).rows i j).map (·.pos)) := by
  obtain ⟨X, hXi⟩ := hE.here _ _ _ hX
  simp only [hXi] at hX
  have hj' : j * c.localThin < c.nLocal := by
    refine lt_of_lt_ceil hE.good.localThin hE.good.nLocal ?_
    rw [ceilDiv'_dvd _ _ hE.good.localThin hE.good.localDvd]; exact hj
  have := hE.loc (.child (.child k' 1) i) hk h S (hS.mono_right (descSet_child.trans descSet_child)) X hX (j * c.localThin) hj'
  refine hE.mono _ _ _ _ (Set.union_subset_union_right S (descSet_child (i := i))) ?_
  convert this using 2 with ω
  rw [cellOf, (hb ω).2.2.2 i (X ω) (hXi ω), Option.bind_some, everyNth_getElem? _ hE.good.localThin]

theorem globalBlock_law (hE : RowLawsOn Q env c data m T) (k' : Key) (h : List Bool) (S : Set (Option Key)) (hS : Disjoint S (descSet k')) (xs : Ω → List (Pos F d)) (b : Ω → Block F d)
    (ys : Ω → List (Pos F d)) (hb : ∀ ω, GlobalBlock (env ω) c data k' (m ω) (xs ω) (b ω) (ys ω)) (i : ℕ) (hk : T (.child (.child k' 1) i)) (hX : Q h S (fun ω => (xs ω)[i]?)) (j : ℕ) (hj : j < rowsPerCall c false) :
    Q (List.replicate (j * c.globalThin + 1) false ++ h) (S ∪ descSet (.child k' 1)) (fun ω => (cellOf (b ω).rows i j).map (·.pos)) := by
  obtain ⟨X, hXi⟩ := hE.here _ _ _ hX
  simp only [hXi] at hX
  have hj' : j * c.globalThin < c.nGlobal := by
    refine lt_of_lt_ceil hE.good.globalThin hE.good.nGlobal ?_
    rw [ceilDiv'_dvd _ _ hE.good.globalThin hE.good.globalDvd]; exact hj
  choose r hr hri using fun ω => (hb ω).2.2.2 i (X ω) (hXi ω)
  have := hE.glob (.child (.child k' 1) i) hk h S (hS.mono_right (descSet_child.trans descSet_child)) X hX r hr (j * c.globalThin) hj'
  refine hE.mono _ _ _ _ (Set.union_subset_union_right S (descSet_child (i := i))) ?_
  convert this using 2 with ω
  rw [cellOf, hri ω, Option.bind_some, everyNth_getElem? _ hE.good.globalThin]

/-- The steps between the starts of two consecutive production loops (from the recorded row handed on to the recorded row handed on): with thinning, the steps after
the last recorded row are thrown away. -/
def loopSteps (c : BundleCfg F D d M O) : List Bool :=
  List.replicate ((rowsPerCall c false - 1) * c.globalThin + 1) false ++ List.replicate ((rowsPerCall c true - 1) * c.localThin + 1) true

/-- The steps of `n` production loops. -/
def loopsSteps (c : BundleCfg F D d M O) : ℕ → List Bool
  | 0 => []
  | n + 1 => loopSteps c ++ loopsSteps c n

/-- The steps before row `r` of a production loop. -/
def rowPre (c : BundleCfg F D d M O) (r : ℕ) : List Bool :=
  if r < rowsPerCall c true then List.replicate (r * c.localThin + 1) true
  else List.replicate ((r - rowsPerCall c true) * c.globalThin + 1) false ++ List.replicate ((rowsPerCall c true - 1) * c.localThin + 1) true

/-- The blocks of the first `n` production loops. -/
def prodBlocks (b1 b2 : ℕ → Ω → Block F d) : ℕ → Ω → List (Block F d)
  | 0, _ => []
  | n + 1, ω => prodBlocks b1 b2 n ω ++ [b1 n ω, b2 n ω]

theorem prodBlocks_congr {b1 b2 b1' b2' : ℕ → Ω → Block F d} (n : ℕ) (h1 : ∀ l < n, b1 l = b1' l) (h2 : ∀ l < n, b2 l = b2' l) (ω : Ω) :
    prodBlocks b1 b2 n ω = prodBlocks b1' b2' n ω := by
  induction n with
  | zero => rfl
  | succ n ih => rw [prodBlocks, prodBlocks, ih (fun l hl => h1 l (by omega)) (fun l hl => h2 l (by omega)), h1 n (by omega), h2 n (by omega)]

/-- Row `r` of chain `i` in loop `l`. -/
def rowCell (c : BundleCfg F D d M O) (b1 b2 : ℕ → Ω → Block F d) (i l r : ℕ) (ω : Ω) : Option (Pos F d) :=
  if r < rowsPerCall c true then (cellOf (b1 l ω).rows i r).map (·.pos) else (cellOf (b2 l ω).rows i (r - rowsPerCall c true)).map (·.pos)

/-- `n` production loops with the flow `m ω` from key `k`, for all outcomes at once: the worlds `w l` between the loops, the positions `zs l` between the steppers, the blocks recorded. -/
structure ProdRun (env : Ω → Env F D d M O) (c : BundleCfg F D d M O) (data : Data D) (m : Ω → M) (k : Key) (logs : Ω → Bool → List (Block F d)) (n : ℕ)
    (w : ℕ → Ω → World F D d M O) (zs : ℕ → Ω → List (Pos F d)) (b1 b2 : ℕ → Ω → Block F d) : Prop where
  key : ∀ l ≤ n, ∀ ω, (w l ω).key = carryKey k (2 * l)
  flow : ∀ l ≤ n, ∀ ω, (w l ω).heap.res "global_sampler" = some (.kernel (.nf (m ω) c.nfBatch))
  len : ∀ l ≤ n, ∀ ω, (w l ω).xs.length = c.nChains
  cur : ∀ l ≤ n, ∀ ω, (w l ω).heap.pos "local_stepper" = l * (rowsPerCall c true + rowsPerCall c false)
  rows : ∀ l ≤ n, ∀ ω, blocksLen (rowsPerCall c) (prodBlocks b1 b2 l ω) = l * (rowsPerCall c true + rowsPerCall c false)
  inv : ∀ l ≤ n, ∀ ω, BundleInv c true (w l ω).heap (Function.update (logs ω) true (prodBlocks b1 b2 l ω))
  loc : ∀ l < n, ∀ ω, LocalBlock (env ω) c data (carryKey k (2 * l)) (w l ω).xs (b1 l ω) (zs l ω)
  glob : ∀ l < n, ∀ ω, GlobalBlock (env ω) c data (.child (carryKey k (2 * l)) 0) (m ω) (zs l ω) (b2 l ω) (w (l + 1) ω).xs

theorem prodRun_exists (hc : GoodCfg c) (hl : ∀ ω, (env ω).ops.Lawful) (strats : String → Option (Strategy F D d M O)) (hs : HasCore c strats) (logs : Ω → Bool → List (Block F d)) (w0 : Ω → World F D d M O)
    (hkey : ∀ ω, (w0 ω).key = k) (hflow : ∀ ω, (w0 ω).heap.res "global_sampler" = some (.kernel (.nf (m ω) c.nfBatch))) (hlen : ∀ ω, (w0 ω).xs.length = c.nChains)
    (hcur : ∀ ω, (w0 ω).heap.pos "local_stepper" = 0) (hinv : ∀ ω, BundleInv c true (w0 ω).heap (Function.update (logs ω) true [])) (n : ℕ) (hn : n ≤ c.nProdLoops) :
    ∀ (w' : Ω → World F D d M O), (∀ ω, Completes (env ω) strats data (repeatPhase n productionPhase) (w0 ω) (w' ω)) →
    ∃ w zs b1 b2, w 0 = w0 ∧ w n = w' ∧ ProdRun env c data m k logs n w zs b1 b2 := by
  induction n with
  | zero =>
    intro w' hrun
    have : w' = w0 := funext fun ω => by
      have := hrun ω
      simpa [repeatPhase, completes_nil] using this
    subst this
    refine ⟨fun _ => w', fun _ _ => [], fun _ _ => ⟨true, []⟩, fun _ _ => ⟨true, []⟩, rfl, rfl, ?_⟩
    exact ⟨fun l hl ω => by obtain rfl : l = 0 := by omega
                            exact hkey ω, fun _ _ => hflow, fun _ _ => hlen, fun l hl ω => by obtain rfl : l = 0 := by omega
                                                                                              simp [hcur],
      fun l hl ω => by obtain rfl : l = 0 := by omega
                       simp [prodBlocks, blocksLen],
      fun l hl ω => by obtain rfl : l = 0 := by omega
                       exact hinv ω, fun l hl => by omega, fun l hl => by omega⟩
  | succ n ih =>
    intro w'' hrun
    have hr := fun ω => by have := hrun ω; rw [repeatPhase_succ, completes_append] at this; exact this
    choose wn hr1 hr2 using hr
    obtain ⟨w, zs, b1, b2, e0, en, hw⟩ := ih (by omega) wn hr1
    have hfit : ∀ ω, blocksLen (rowsPerCall c) (Function.update (logs ω) true (prodBlocks b1 b2 n ω) true) + (rowsPerCall c true + rowsPerCall c false) ≤ capacity c true := by
      intro ω
      rw [Function.update_self, hw.rows n le_rfl, capacity_eq]
      calc _ = (n + 1) * (rowsPerCall c true + rowsPerCall c false) := by ring
        _ ≤ _ := Nat.mul_le_mul_right _ hn
    subst en
    have hloop := fun ω => one_loop (env ω) (hl ω) c hc strats hs data true [] [] Eq (quietPre_nil _ c strats data) (quietMid_nil _ c strats data) (w n ω) (w'' ω) (hr2 ω) _
      (hw.inv n le_rfl ω) (hw.len n le_rfl ω) (by rw [Function.update_self, hw.cur n le_rfl, hw.rows n le_rfl]) (hfit ω)
    choose a1 a2 w1 w2 w4 m' hgap hb1 hb2 hx inv hlen' ht1 ht2 hp hp' using hloop
    have hx1 : ∀ ω, w1 ω = w n ω := fun ω => completes_nil.1 (hx ω).1
    have hx4 : ∀ ω, w4 ω = w2 ω := fun ω => completes_nil.1 (hx ω).2.2.2.1
    have hm : ∀ ω, m' ω = m ω := by
      intro ω
      have h1 := (hx ω).2.2.2.2.1
      rw [hx4 ω, (hx ω).2.2.1 _ (not_isSampleBuffer (by decide)), hx1 ω, hw.flow n le_rfl ω] at h1
      simp only [Option.some.injEq, Resource.kernel.injEq, KernelRes.nf.injEq, and_true] at h1
      exact h1.symm
    set k0 := carryKey k (2 * n) with hk0
    have hk1 : carryKey k (2 * (n + 1)) = .child (.child k0 0) 0 := by
      rw [show 2 * (n + 1) = 2 * n + 1 + 1 by ring, carryKey_succ, carryKey_succ]
    have hb1' : ∀ ω, LocalBlock (env ω) c data k0 (w n ω).xs (a1 ω) (w2 ω).xs := by
      intro ω; have := hb1 ω; rw [hx1 ω, hw.key n le_rfl ω] at this; exact this
    have hb2' : ∀ ω, GlobalBlock (env ω) c data (.child k0 0) (m ω) (w2 ω).xs (a2 ω) (w'' ω).xs := by
      intro ω; have := hb2 ω; rw [hx4 ω, (hx ω).2.1, hx1 ω, hw.key n le_rfl ω, hm ω] at this; exact this
    have hrows' : ∀ ω, blocksLen (rowsPerCall c) (prodBlocks b1 b2 n ω ++ [a1 ω, a2 ω]) = (n + 1) * (rowsPerCall c true + rowsPerCall c false) := by
      intro ω; rw [blocksLen_append, hw.rows n le_rfl]; simp [blocksLen, ht1, ht2]; ring
    have hpb : ∀ l ≤ n, ∀ ω, prodBlocks (Function.update b1 n a1) (Function.update b2 n a2) l ω = prodBlocks b1 b2 l ω := fun l hl ω =>
      prodBlocks_congr l (fun l' hl' => Function.update_of_ne (by omega) _ _) (fun l' hl' => Function.update_of_ne (by omega) _ _) ω
    have hpb' : ∀ ω, prodBlocks (Function.update b1 n a1) (Function.update b2 n a2) (n + 1) ω = prodBlocks b1 b2 n ω ++ [a1 ω, a2 ω] := by
      intro ω; rw [prodBlocks, hpb n le_rfl, Function.update_self, Function.update_self]
    have up : ∀ l ≤ n, Function.update w (n + 1) w'' l = w l := fun l hl => Function.update_of_ne (by omega) _ _
    refine ⟨Function.update w (n + 1) w'', Function.update zs n fun ω => (w2 ω).xs, Function.update b1 n a1, Function.update b2 n a2, by rw [up 0 (by omega), e0], Function.update_self _ _ _, ?_⟩
    refine ⟨?_, ?_, ?_, ?_, ?_, ?_, ?_, ?_⟩
    · intro l hl' ω
      rcases Nat.lt_or_ge n l with h | h
      · obtain rfl : l = n + 1 := by omega
        rw [Function.update_self, hk1, (hx ω).2.2.2.2.2.1, hx4 ω, (hx ω).2.1, hx1 ω, hw.key n le_rfl ω]
      · rw [up l h]; exact hw.key l h ω
    · intro l hl' ω
      rcases Nat.lt_or_ge n l with h | h
      · obtain rfl : l = n + 1 := by omega
        rw [Function.update_self, (hx ω).2.2.2.2.2.2.1 _ (not_isSampleBuffer (by decide)), (hx ω).2.2.2.2.1, hm ω]
      · rw [up l h]; exact hw.flow l h ω
    · intro l hl' ω
      rcases Nat.lt_or_ge n l with h | h
      · obtain rfl : l = n + 1 := by omega
        rw [Function.update_self]; exact hlen' ω
      · rw [up l h]; exact hw.len l h ω
    · intro l hl' ω
      rcases Nat.lt_or_ge n l with h | h
      · obtain rfl : l = n + 1 := by omega
        have := hp ω; rw [Function.update_self, hrows' ω] at this
        rw [Function.update_self]; exact this
      · rw [up l h]; exact hw.cur l h ω
    · intro l hl' ω
      rcases Nat.lt_or_ge n l with h | h
      · obtain rfl : l = n + 1 := by omega
        rw [hpb', hrows']
      · rw [hpb l h]; exact hw.rows l h ω
    · intro l hl' ω
      rcases Nat.lt_or_ge n l with h | h
      · obtain rfl : l = n + 1 := by omega
        have := inv ω; rw [Function.update_idem, Function.update_self] at this
        rw [hpb', Function.update_self]; exact this
      · rw [hpb l h, up l h]; exact hw.inv l h ω
    · intro l hl' ω
      rcases Nat.lt_or_ge l n with h | h
      · rw [up l (by omega), Function.update_of_ne (by omega), Function.update_of_ne (by omega)]; exact hw.loc l h ω
      · obtain rfl : l = n := by omega
        rw [up l le_rfl, Function.update_self, Function.update_self]; exact hb1' ω
    · intro l hl' ω
      rcases Nat.lt_or_ge l n with h | h
      · rw [up (l + 1) (by omega), Function.update_of_ne (by omega), Function.update_of_ne (by omega)]; exact hw.glob l h ω
      · obtain rfl : l = n := by omega
        rw [Function.update_self, Function.update_self, Function.update_self]; exact hb2' ω

variable {logs : Ω → Bool → List (Block F d)} {n : ℕ} {w : ℕ → Ω → World F D d M O} {zs : ℕ → Ω → List (Pos F d)} {b1 b2 : ℕ → Ω → Block F d}

theorem prodBlocks_prefix (l n : ℕ) (h : l ≤ n) (ω : Ω) : ∃ rest, prodBlocks b1 b2 n ω = prodBlocks b1 b2 l ω ++ rest := by
  induction n with
  | zero => obtain rfl : l = 0 := by omega
            exact ⟨[], by simp⟩
  | succ n ih =>
    rcases Nat.lt_or_ge n l with h' | h'
    · obtain rfl : l = n + 1 := by omega
      exact ⟨[], by simp⟩
    · obtain ⟨rest, e⟩ := ih h'
      exact ⟨rest ++ [b1 n ω, b2 n ω], by rw [prodBlocks, e, List.append_assoc]⟩

theorem ProdRun.sized (R : ProdRun env c data m k logs n w zs b1 b2) (l : ℕ) (hl : l ≤ n) (ω : Ω) : WellSized c.nChains (rowsPerCall c) (prodBlocks b1 b2 l ω) := by
  have := (R.inv l hl ω).sized true; rwa [Function.update_self] at this

theorem ProdRun.len1 (R : ProdRun env c data m k logs n w zs b1 b2) (l : ℕ) (hl : l < n) (ω : Ω) : ∀ r ∈ (b1 l ω).rows, r.length = rowsPerCall c true := by
  intro r hr
  have := (R.sized (l + 1) hl ω (b1 l ω) (by simp [prodBlocks])).2 r hr
  rwa [(R.loc l hl ω).1] at this

theorem ProdRun.len2 (R : ProdRun env c data m k logs n w zs b1 b2) (l : ℕ) (hl : l < n) (ω : Ω) : ∀ r ∈ (b2 l ω).rows, r.length = rowsPerCall c false := by
  intro r hr
  have := (R.sized (l + 1) hl ω (b2 l ω) (by simp [prodBlocks])).2 r hr
  rwa [(R.glob l hl ω).1] at this

/-- Where the rows are in the log. -/
theorem ProdRun.cell (R : ProdRun env c data m k logs n w zs b1 b2) (ω : Ω) (i : ℕ) (hi : i < c.nChains) (l : ℕ) (hl : l < n) (r : ℕ) (hr : r < rowsPerCall c true + rowsPerCall c false) :
    ((tagged (prodBlocks b1 b2 n ω) i)[l * (rowsPerCall c true + rowsPerCall c false) + r]?).map (·.2.pos) = rowCell c b1 b2 i l r ω := by
  obtain ⟨rest, e⟩ := prodBlocks_prefix (b1 := b1) (b2 := b2) (l + 1) n hl ω
  have hlen := tagged_length c.nChains (rowsPerCall c) _ (R.sized (l + 1) hl ω) i hi
  rw [R.rows (l + 1) hl] at hlen
  have hs : (l + 1) * (rowsPerCall c true + rowsPerCall c false) = l * (rowsPerCall c true + rowsPerCall c false) + (rowsPerCall c true + rowsPerCall c false) := by ring
  rw [e, tagged_append, List.getElem?_append_left (by omega)]
  have hsz := R.sized (l + 1) hl ω
  rw [prodBlocks] at hsz ⊢
  have hrl := R.rows l (by omega) ω
  have hbl1 : blocksLen (rowsPerCall c) (prodBlocks b1 b2 l ω ++ [b1 l ω]) = l * (rowsPerCall c true + rowsPerCall c false) + rowsPerCall c true := by
    rw [blocksLen_append, hrl]; simp [blocksLen, (R.loc l hl ω).1]
  have e2 : prodBlocks b1 b2 l ω ++ [b1 l ω, b2 l ω] = (prodBlocks b1 b2 l ω ++ [b1 l ω]) ++ [b2 l ω] := by simp
  have g2 := tagged_snoc_get c.nChains (rowsPerCall c) (prodBlocks b1 b2 l ω ++ [b1 l ω]) (fun b hb => hsz b (by simp at hb ⊢; tauto)) (b2 l ω) i (l * (rowsPerCall c true + rowsPerCall c false) + r) hi
  have g1 := tagged_snoc_get c.nChains (rowsPerCall c) (prodBlocks b1 b2 l ω) (fun b hb => hsz b (by simp [hb])) (b1 l ω) i (l * (rowsPerCall c true + rowsPerCall c false) + r) hi
  rw [e2, g2, hbl1, rowCell]
  by_cases h : r < rowsPerCall c true
  · rw [if_pos (by omega), g1, hrl, if_neg (by omega), if_pos h, Nat.add_sub_cancel_left, Option.map_map]; rfl
  · rw [if_neg (by omega), if_neg h, Option.map_map, show l * (rowsPerCall c true + rowsPerCall c false) + r - (l * (rowsPerCall c true + rowsPerCall c false) + rowsPerCall c true) = r - rowsPerCall c true by omega]; rfl

/-- The draws made before loop `l`. -/
def prodSet (k : Key) : ℕ → Set (Option Key)
  | 0 => {none}
  | l + 1 => prodSet k l ∪ descSet (.child (carryKey k (2 * l)) 1) ∪ descSet (.child (.child (carryKey k (2 * l)) 0) 1)

theorem prodSet_disjoint (k : Key) (l : ℕ) : Disjoint (prodSet k l) (descSet (carryKey k (2 * l))) := by
  induction l with
  | zero => rw [prodSet, Set.disjoint_left]; rintro o ho ⟨a, rfl, _⟩; simp at ho
  | succ l ih =>
    rw [show 2 * (l + 1) = 2 * l + 1 + 1 by ring, carryKey_succ, carryKey_succ, prodSet]
    refine Set.disjoint_union_left.2 ⟨?_, descSet_disjoint (by decide)⟩
    exact (Set.disjoint_union_left.2 ⟨ih.mono_right descSet_child, descSet_disjoint (by decide)⟩).mono_right descSet_child

theorem prodSet_mono (k : Key) {l l' : ℕ} (h : l ≤ l') : prodSet k l ⊆ prodSet k l' := by
  induction l' with
  | zero => obtain rfl : l = 0 := by omega
            exact le_rfl
  | succ l' ih =>
    rcases Nat.lt_or_ge l' l with h' | h'
    · obtain rfl : l = l' + 1 := by omega
      exact le_rfl
    · exact (ih h').trans (Set.subset_union_left.trans Set.subset_union_left)

/-- One loop, for any property of random positions the steppers pass on. -/
theorem ProdRun.loop_laws (R : ProdRun env c data m k logs n w zs b1 b2) (hE : RowLawsOn Q env c data m T) (l : ℕ) (hl : l < n) (H : List Bool) (i : ℕ)
    (hT : ∀ l, T (.child (.child (carryKey k l) 1) i))
    (hs : Q H (prodSet k l) (fun ω => (w l ω).xs[i]?)) :
    (∀ r < rowsPerCall c true + rowsPerCall c false, Q (rowPre c r ++ H) (prodSet k (l + 1)) (rowCell c b1 b2 i l r)) ∧
    Q (loopSteps c ++ H) (prodSet k (l + 1)) (fun ω => (w (l + 1) ω).xs[i]?) := by
  have hd := prodSet_disjoint k l
  have hd1 : Disjoint (prodSet k l ∪ descSet (.child (carryKey k (2 * l)) 1)) (descSet (.child (carryKey k (2 * l)) 0)) :=
    Set.disjoint_union_left.2 ⟨hd.mono_right descSet_child, descSet_disjoint (by decide)⟩
  have law1 : ∀ j < rowsPerCall c true, Q (List.replicate (j * c.localThin + 1) true ++ H) (prodSet k l ∪ descSet (.child (carryKey k (2 * l)) 1)) (fun ω => (cellOf (b1 l ω).rows i j).map (·.pos)) := fun j hj =>
    localBlock_law hE _ _ _ hd (fun ω => (w l ω).xs) (b1 l) (zs l) (R.loc l hl) i (hT _) hs j hj
  have last1 : Q (List.replicate ((rowsPerCall c true - 1) * c.localThin + 1) true ++ H) (prodSet k l ∪ descSet (.child (carryKey k (2 * l)) 1)) (fun ω => (zs l ω)[i]?) :=
    lastRow_law (Q := Q _) (b1 l) (zs l) (fun ω => (R.loc l hl ω).2.1) (rowsPerCall_pos hE.good true) i (R.len1 l hl) (law1 _ (Nat.sub_one_lt (rowsPerCall_pos hE.good true).ne'))
  have law2 : ∀ j < rowsPerCall c false, Q (List.replicate (j * c.globalThin + 1) false ++ (List.replicate ((rowsPerCall c true - 1) * c.localThin + 1) true ++ H)) (prodSet k (l + 1))
      (fun ω => (cellOf (b2 l ω).rows i j).map (·.pos)) := fun j hj =>
    globalBlock_law hE _ _ _ hd1 (zs l) (b2 l) (fun ω => (w (l + 1) ω).xs) (R.glob l hl) i (by have := hT (2 * l + 1); rwa [carryKey_succ] at this) last1 j hj
  refine ⟨fun r hr => ?_, ?_⟩
  · unfold rowPre rowCell
    by_cases h : r < rowsPerCall c true
    · simp only [if_pos h]
      exact hE.mono _ _ _ _ Set.subset_union_left (law1 r h)
    · simp only [if_neg h, List.append_assoc]
      exact law2 _ (by omega)
  · rw [loopSteps, List.append_assoc]
    exact lastRow_law (Q := Q _) (b2 l) (fun ω => (w (l + 1) ω).xs) (fun ω => (R.glob l hl ω).2.1) (rowsPerCall_pos hE.good false) i (R.len2 l hl) (law2 _ (Nat.sub_one_lt (rowsPerCall_pos hE.good false).ne'))

/-- All loops from loop `l0` on. -/
theorem ProdRun.lawsOn (R : ProdRun env c data m k logs n w zs b1 b2) (hE : RowLawsOn Q env c data m T) (l0 : ℕ) (H : List Bool) (i : ℕ)
    (hT : ∀ l, T (.child (.child (carryKey k l) 1) i))
    (hs : Q H (prodSet k l0) (fun ω => (w l0 ω).xs[i]?)) :
    (∀ l, l0 + l ≤ n → Q (loopsSteps c l ++ H) (prodSet k (l0 + l)) (fun ω => (w (l0 + l) ω).xs[i]?)) ∧
    ∀ l, l0 + l < n → ∀ r < rowsPerCall c true + rowsPerCall c false, Q (rowPre c r ++ (loopsSteps c l ++ H)) (prodSet k (l0 + l + 1)) (rowCell c b1 b2 i (l0 + l) r) := by
  have h1 : ∀ l, l0 + l ≤ n → Q (loopsSteps c l ++ H) (prodSet k (l0 + l)) (fun ω => (w (l0 + l) ω).xs[i]?) := by
    intro l
    induction l with
    | zero => intro _; exact hs
    | succ l ih =>
      intro hl
      have := (R.loop_laws hE (l0 + l) (by omega) _ i hT (ih (by omega))).2
      rw [loopsSteps, List.append_assoc]; exact this
  exact ⟨h1, fun l hl r hr => (R.loop_laws hE (l0 + l) hl _ i hT (h1 l (by omega))).1 r hr⟩

/-- All loops from loop `l0` on. -/
theorem ProdRun.laws (R : ProdRun env c data m k logs n w zs b1 b2) (hE : RowLaws Q env c data m k) (l0 : ℕ) (H : List Bool) (i : ℕ)
    (hs : Q H (prodSet k l0) (fun ω => (w l0 ω).xs[i]?)) :
    (∀ l, l0 + l ≤ n → Q (loopsSteps c l ++ H) (prodSet k (l0 + l)) (fun ω => (w (l0 + l) ω).xs[i]?)) ∧
    ∀ l, l0 + l < n → ∀ r < rowsPerCall c true + rowsPerCall c false, Q (rowPre c r ++ (loopsSteps c l ++ H)) (prodSet k (l0 + l + 1)) (rowCell c b1 b2 i (l0 + l) r) :=
  R.lawsOn hE l0 H i (fun l => .child i (.child 1 (desc_carryKey k l))) hs

/-- What the production phase finds: empty production buffers, the cursors at their start, the right number of chains. -/
def Ready (c : BundleCfg F D d M O) (w : World F D d M O) : Prop :=
  ∃ logs : Bool → List (Block F d), logs true = [] ∧ BundleInv c true w.heap logs ∧ w.xs.length = c.nChains ∧ w.heap.pos "local_stepper" = 0

/-- The start of the production phase of a run from fresh resources. -/
theorem production_start (env : Env F D d M O) (hl : env.ops.Lawful) (c : BundleCfg F D d M O) (hc : GoodCfg c) (data : Data D) (key : Key) (xs : List (Pos F d))
    (hx : xs.length = c.nChains) (w : World F D d M O) (hrun : Completes env (bundleStrategies c).lookup data
      (repeatPhase c.nTrainLoops trainingPhase ++ ["reset_steppers", "update_state"]) ⟨key, xs, ⟨bundleResources c, fun _ => 0⟩⟩ w) :
    Ready c w := by
  rw [completes_append] at hrun
  obtain ⟨wT, h1, h2⟩ := hrun
  obtain ⟨logT, -, -, -, inv1, hx1, -, -⟩ := many_loops env hl c hc _ (bundle_hasCore c) data false [] ["model_trainer", "update_model"] Eq
    (quietPre_nil env c _ data) (quietMid_train env c _ (bundle_hasCore c) data) ⟨key, xs, ⟨bundleResources c, fun _ => 0⟩⟩ (fun _ => []) rfl
    (bundleInv_fresh c _ (fun _ _ => rfl)) hx rfl c.nTrainLoops (le_refl _) wT h1
  obtain ⟨hx2, -, inv2, hp2, -, -, -⟩ := switch_step env c _ (bundle_hasCore c) data wT w h2 _ inv1
  exact ⟨_, by simp, inv2, by rw [hx2, hx1], hp2⟩

/-- The production phase of a run, as a sequence of loops. -/
theorem production_run (hc : GoodCfg c) (hlaw : ∀ ω, (env ω).ops.Lawful) (w0 w' : Ω → World F D d M O) (hready : ∀ ω, Ready c (w0 ω))
    (hkey : ∀ ω, (w0 ω).key = k) (hflow : ∀ ω, (w0 ω).heap.res "global_sampler" = some (.kernel (.nf (m ω) c.nfBatch)))
    (hprod : ∀ ω, Completes (env ω) (malaBundle c).strategies.lookup data (repeatPhase c.nProdLoops productionPhase) (w0 ω) (w' ω)) :
    ∃ logs w zs b1 b2, w 0 = w0 ∧ w c.nProdLoops = w' ∧ ProdRun env c data m k logs c.nProdLoops w zs b1 b2 := by
  choose logs hlogs hinv hlen hpos using hready
  obtain ⟨w, zs, b1, b2, h⟩ := prodRun_exists hc hlaw _ (bundle_hasCore c) logs w0 hkey hflow hlen hpos (fun ω => by rw [← hlogs ω, Function.update_eq_self]; exact hinv ω) c.nProdLoops le_rfl w' hprod
  exact ⟨logs, w, zs, b1, b2, h⟩

/-- What the production position buffer contains at the end. -/
theorem ProdRun.buffer (R : ProdRun env c data m k logs c.nProdLoops w zs b1 b2) (ω : Ω) : ∃ b, (w c.nProdLoops ω).heap.res "positions_production" = some (.buffer b) ∧
    ∀ i < c.nChains, ∀ j < c.nProdSteps, ∀ Y, rowCell c b1 b2 i (j / (rowsPerCall c true + rowsPerCall c false)) (j % (rowsPerCall c true + rowsPerCall c false)) ω = some Y →
      ∀ a : Fin d, b.data.get [i, j, a] = Y a := by
  have hrec := (R.inv c.nProdLoops le_rfl ω).recs true
  rw [Function.update_self] at hrec
  obtain ⟨b, hb, -, -, hcell⟩ := hrec.pos
  refine ⟨b, hb, fun i hi j hj Y hY a => ?_⟩
  have hcap : c.nProdSteps = c.nProdLoops * (rowsPerCall c true + rowsPerCall c false) := capacity_eq c true
  have hpos : 0 < rowsPerCall c true + rowsPerCall c false := by
    rcases Nat.eq_zero_or_pos (rowsPerCall c true + rowsPerCall c false) with h | h
    · rw [hcap, h] at hj; omega
    · exact h
  have h := R.cell ω i hi (j / (rowsPerCall c true + rowsPerCall c false)) (Nat.div_lt_of_lt_mul (by rw [mul_comm, ← hcap]; exact hj)) (j % (rowsPerCall c true + rowsPerCall c false)) (Nat.mod_lt _ hpos)
  rw [Nat.div_add_mod', hY] at h
  rw [hcell i j a hi hj]
  cases ht : (tagged (prodBlocks b1 b2 c.nProdLoops ω) i)[j]? with
  | none => rw [ht] at h; simp at h
  | some o => rw [ht] at h; simp only [Option.map_some, Option.some.injEq] at h; rw [← h]

/-- The cells of the production buffer, and the final positions, after the production phase. -/
theorem production_cells (hE : RowLaws Q env c data m k) (w w' : Ω → World F D d M O) (hready : ∀ ω, Ready c (w ω))
    (hkey : ∀ ω, (w ω).key = k) (hflow : ∀ ω, (w ω).heap.res "global_sampler" = some (.kernel (.nf (m ω) c.nfBatch)))
    (hstart : ∀ i < c.nChains, Q [] {none} (fun ω => (w ω).xs[i]?))
    (hprod : ∀ ω, Completes (env ω) (malaBundle c).strategies.lookup data (repeatPhase c.nProdLoops productionPhase) (w ω) (w' ω)) :
    ∃ S', (∀ i < c.nChains, ∀ j < c.nProdSteps, ∃ (pre : List Bool) (Y : Ω → Pos F d), Q (pre ++ loopsSteps c (j / (rowsPerCall c true + rowsPerCall c false))) S' (fun ω => some (Y ω)) ∧
      ∀ ω, ∃ b, (w' ω).heap.res "positions_production" = some (.buffer b) ∧ ∀ a : Fin d, b.data.get [i, j, a] = Y ω a) ∧
    ∀ i < c.nChains, Q (loopsSteps c c.nProdLoops) S' (fun ω => (w' ω).xs[i]?) := by
  obtain ⟨logs, v, zs, b1, b2, e0, en, R⟩ := production_run hE.good hE.lawful w w' hready hkey hflow hprod
  have hcap : c.nProdSteps = c.nProdLoops * (rowsPerCall c true + rowsPerCall c false) := capacity_eq c true
  have hpos := rowsPerCall_pos hE.good true
  refine ⟨prodSet k c.nProdLoops, fun i hi j hj => ?_, fun i hi => ?_⟩
  · have hs : Q [] (prodSet k 0) (fun ω => (v 0 ω).xs[i]?) := by rw [e0]; exact hstart i hi
    have hl : j / (rowsPerCall c true + rowsPerCall c false) < c.nProdLoops := Nat.div_lt_of_lt_mul (by rw [mul_comm, ← hcap]; exact hj)
    have := (R.laws hE 0 [] i hs).2 (j / (rowsPerCall c true + rowsPerCall c false)) (by omega) (j % (rowsPerCall c true + rowsPerCall c false)) (Nat.mod_lt _ (by omega))
    rw [List.append_nil, Nat.zero_add] at this
    have := hE.mono _ _ _ _ (prodSet_mono k (show j / (rowsPerCall c true + rowsPerCall c false) + 1 ≤ c.nProdLoops from hl)) this
    obtain ⟨Y, hY⟩ := hE.here _ _ _ this
    refine ⟨rowPre c (j % (rowsPerCall c true + rowsPerCall c false)), Y, ?_, fun ω => ?_⟩
    · convert this using 2 with ω; exact (hY ω).symm
    · obtain ⟨b, hb, hc⟩ := R.buffer ω
      exact ⟨b, by rw [← en]; exact hb, hc i hi j hj (Y ω) (hY ω)⟩
  · have hs : Q [] (prodSet k 0) (fun ω => (v 0 ω).xs[i]?) := by rw [e0]; exact hstart i hi
    have := (R.laws hE 0 [] i hs).1 c.nProdLoops (by omega)
    rw [List.append_nil, Nat.zero_add, en] at this
    exact this

end FlowMC
