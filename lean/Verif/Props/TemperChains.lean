import Verif.Props.Keys
import Verif.Props.Tempering
/-
C13 for the remaining strategies that move chains: parallel tempering and Adam optimisation.
-/
set_option linter.unusedSectionVars false
namespace FlowMC
open Spec

variable {F D : Type} {d : Nat} {M O : Type} [Zero F] [One F] [Add F] [Mul F] [Div F] [Sub F] [Neg F] [NatCast F] [Transc F] [FCmp F]

/-- The keys a tempering call with key `k` may use for chain `c`: one subtree for the moves of its walkers, one for their exchanges. -/
def Spec.temperChainKeys (k : Key) (c : Nat) (a : Key) : Prop :=
  Desc (.child (.child (.child k 0) 1) c) a ∨ Desc (.child (.child (.child (.child k 0) 0) 1) c) a

/-- The key sets of different chains have nothing in common. -/
theorem C13_tempering_keys (k a : Key) (c c' : Nat) (h : c ≠ c') : ¬ (temperChainKeys k c a ∧ temperChainKeys k c' a) := by
  rintro ⟨h1 | h1, h2 | h2⟩
  · exact children_disjoint h ⟨h1, h2⟩
  · exact children_disjoint (k := .child k 0) (i := 1) (j := 0) (by decide) ⟨desc_trans desc_child_self h1, desc_trans desc_child_self (desc_trans desc_child_self h2)⟩
  · exact children_disjoint (k := .child k 0) (i := 1) (j := 0) (by decide) ⟨desc_trans desc_child_self h2, desc_trans desc_child_self (desc_trans desc_child_self h1)⟩
  · exact children_disjoint h ⟨h1, h2⟩

theorem exchange_agree (e e' : Env F D d M O) (l : TemperedPDF F D d) (data : Data D) (Ts : List F) (k : Key) (ha : AgreeOn (Desc k) e e') (xs : List (Pos F d)) :
    exchange e.rng l data Ts k xs = exchange e'.rng l data Ts k xs := exchScan_agree e e' Ts _ _ _ ha _

theorem ensembleStep_agree (e e' : Env F D d M O) (kr : KernelRes F d M) (K K' : LocalKernel F D d)
    (hK : kr.local? e.rng = some K) (hK' : kr.local? e'.rng = some K') (k : Key) (ha : AgreeOn (Desc k) e e')
    (l : TemperedPDF F D d) (data : Data D) (n : Nat) (xs : List (Pos F d)) (Ts : List F) : ensembleStep K l data n k xs Ts = ensembleStep K' l data n k xs Ts := by
  refine List.map_congr_left fun a hm => ?_
  have hk : a.1 ∈ splitN k xs.length := (List.of_mem_zip (show (a.1, a.2) ∈ _ from hm)).1
  obtain ⟨i, hi⟩ := List.mem_iff_getElem?.1 hk
  rw [splitN_getElem?] at hi
  split at hi
  · rw [Option.some.injEq] at hi
    rw [← hi]
    exact individualStep_agree e e' kr K K' hK hK' _ (ha.mono fun b hb => desc_trans desc_child_self hb) l data n _ _
  · simp at hi

/-- The walkers of one chain after the call, in terms of that chain's walkers before it and its keys. -/
theorem walkers_at (rng : Rng F) (s : ParallelTempering) (k : Key) (xs : List (Pos F d)) (data : Data D) (m : Nat) (pb tb : Buffer F) (K : LocalKernel F D d) (l : TemperedPDF F D d) (c : Nat) :
    (temperedWalkers rng s k xs data m pb tb K l)[c]? = xs[c]?.map fun x => exchange rng l data (ladder tb m) (.child (.child (.child (.child k 0) 0) 1) c)
      (ensembleStep K l data s.nSteps (.child (.child (.child k 0) 1) c) (x :: (List.range m).map (fun j => (row3 pb.data c j : Pos F d))) (ladder tb m)) := by
  simp only [temperedWalkers, List.getElem?_map, List.getElem?_zipIdx, Option.map_map, Nat.zero_add]
  rfl

theorem heads_at (ws : List (ExchCarry F d × List Bool)) (h : ∀ e ∈ ws, e.1.positions ≠ []) (c : Nat) :
    (ws.filterMap fun e => e.1.positions.head?)[c]? = ws[c]?.bind fun e => e.1.positions.head? := by
  induction ws generalizing c with
  | nil => simp
  | cons w ws ih =>
    have ih' := ih (fun e he => h e (by simp [he]))
    match hp : w.1.positions with
    | [] => exact absurd hp (h w (by simp))
    | a :: as => cases c <;> simp [List.filterMap_cons, hp, ih']

/-- **C13, tempering.**  Two tempering calls with the same key, temperatures, density and kernel settings, made from resources and positions that agree on chain `c` (its position and
its replicas) and with random numbers that agree on that chain's keys, return the same position for chain `c` and store the same replicas for it, whatever the other chains
and their random numbers are.  (The adapted temperatures do depend on all chains: C33.) -/
theorem C13_tempering [BufNum F] (e e' : Env F D d M O) (s : ParallelTempering) (k : Key) (xs xs' : List (Pos F d)) (data : Data D) (h h' : Heap F D d M O)
    (m : Nat) (P T : String) (pb pb' tb tb' : Buffer F) (K K' : LocalKernel F D d) (l : TemperedPDF F D d) (v : SVal)
    (site : TemperSite s h e.rng xs.length m P T pb tb K l v) (site' : TemperSite s h' e'.rng xs'.length m P T pb' tb' K' l v)
    (hker : h.res s.kernelName = h'.res s.kernelName) (hlad : ladder tb m = ladder tb' m) (c : Nat) (hc : c < xs.length) (hx : xs[c]? = xs'[c]?)
    (hrep : ∀ j < m, ∀ a : Fin d, pb.data.get [c, j, a] = pb'.data.get [c, j, a]) (ha : AgreeOn (temperChainKeys k c) e e') :
    ∃ k1 ys h1 ys' h1' x b b', s.run e k xs data h = (.ok (k1, ys), h1) ∧ s.run e' k xs' data h' = (.ok (k1, ys'), h1') ∧ ys[c]? = some x ∧ ys'[c]? = some x ∧
      h1.res P = some (.buffer b) ∧ h1'.res P = some (.buffer b') ∧ ∀ j < m, ∀ a : Fin d, b.data.get [c, j, a] = b'.data.get [c, j, a] := by
  obtain ⟨kr, hk1, hk2⟩ := site.kernel
  obtain ⟨kr', hk1', hk2'⟩ := site'.kernel
  have hkr : kr' = kr := by
    rw [hker, hk1'] at hk1
    simpa using hk1
  subst hkr
  have hW : (temperedWalkers e.rng s k xs data m pb tb K l)[c]? = (temperedWalkers e'.rng s k xs' data m pb' tb' K' l)[c]? := by
    rw [walkers_at, walkers_at, hx, hlad]
    congr 1
    funext x
    have hr : (List.range m).map (fun j => (row3 pb.data c j : Pos F d)) = (List.range m).map (fun j => (row3 pb'.data c j : Pos F d)) :=
      List.map_congr_left fun j hj => funext fun a => hrep j (List.mem_range.1 hj) a
    rw [hr, ensembleStep_agree e e' kr' K K' hk2 hk2' _ (ha.mono fun b hb => Or.inl hb), exchange_agree e e' _ _ _ _ (ha.mono fun b hb => Or.inr hb)]
  obtain ⟨wl, wp⟩ := temperedWalkers_length e.rng s k xs data m pb tb K l
  obtain ⟨wl', wp'⟩ := temperedWalkers_length e'.rng s k xs' data m pb' tb' K' l
  obtain ⟨w, hw⟩ : ∃ w, (temperedWalkers e.rng s k xs data m pb tb K l)[c]? = some w := ⟨_, List.getElem?_eq_getElem (wl ▸ hc)⟩
  have hw' := hW ▸ hw
  have wlen := wp w (List.mem_of_getElem? hw)
  obtain ⟨x, hhead⟩ : ∃ x, w.1.positions.head? = some x := by
    match hp : w.1.positions with
    | [] => simp [hp] at wlen
    | a :: as => exact ⟨a, rfl⟩
  have hys : ((temperedWalkers e.rng s k xs data m pb tb K l).filterMap (fun e => e.1.positions.head?))[c]? = some x := by
    rw [heads_at _ (fun e he h0 => by have := wp e he; simp [h0] at this), hw]; exact hhead
  have hys' : ((temperedWalkers e'.rng s k xs' data m pb' tb' K' l).filterMap (fun e => e.1.positions.head?))[c]? = some x := by
    rw [heads_at _ (fun e he h0 => by have := wp' e he; simp [h0] at this), hw']; exact hhead
  cases hv : v.truthy with
  | false =>
    exact ⟨_, _, _, _, _, x, pb, pb', C35_frozen e s k xs data h m P T pb tb K l v site hv, C35_frozen e' s k xs' data h' m P T pb' tb' K' l v site' hv, hys, hys',
      site.posBuf, site'.posBuf, hrep⟩
  | true =>
    obtain ⟨h1, b, _, hrun, -, -, hP, -, -, -, -, hrow, -⟩ := C35_training e s k xs data h m P T pb tb K l v site hv
    obtain ⟨h1', b', _, hrun', -, -, hP', -, -, -, -, hrow', -⟩ := C35_training e' s k xs' data h' m P T pb' tb' K' l v site' hv
    refine ⟨_, _, h1, _, h1', x, b, b', hrun, hrun', hys, hys', hP, hP', fun j hj a => ?_⟩
    obtain ⟨y, hy⟩ : ∃ y, w.1.positions[j + 1]? = some y := ⟨_, List.getElem?_eq_getElem (by omega)⟩
    rw [hrow c j w y hw hy a, hrow' c j w y hw' hy a]

/-- **C13, optimisation.**  The optimised position of one chain depends only on that chain's start and on that chain's random numbers. -/
theorem C13_optimization (e e' : Env F D d M O) (a : AdamOptimization F D d) (k : Key) (xs xs' : List (Pos F d)) (data : Data D) (h h' : Heap F D d M O)
    (hb : a.bounds.length = 1 ∨ a.bounds.length = d) (c : Nat) (hc : c < xs.length) (hx : xs[c]? = xs'[c]?) (ha : AgreeOn (Desc (.child (.child k 1) c)) e e') :
    ∃ k1 ys ys' x, a.run e.rng k xs data h = (.ok (k1, ys), h) ∧ a.run e'.rng k xs' data h' = (.ok (k1, ys'), h') ∧ ys[c]? = some x ∧ ys'[c]? = some x := by
  have hs : ∀ x, a.single e.rng data (.child (.child k 1) c) x = a.single e'.rng data (.child (.child k 1) c) x := by
    intro x
    unfold AdamOptimization.single
    have : ∀ n, Nat.repeat (a.kernel e.rng data) n (.child (.child k 1) c, x, a.solver.init x) = Nat.repeat (a.kernel e'.rng data) n (.child (.child k 1) c, x, a.solver.init x) ∧
        Desc (.child (.child k 1) c) (Nat.repeat (a.kernel e'.rng data) n (.child (.child k 1) c, x, a.solver.init x)).1 := by
      intro n
      induction n with
      | zero => exact ⟨rfl, .refl⟩
      | succ n ih =>
        simp only [Nat.repeat]
        rw [ih.1]
        refine ⟨?_, desc_trans ih.2 desc_child_self⟩
        simp only [AdamOptimization.kernel, split]
        rw [ha.normal _ (desc_trans ih.2 desc_child_self)]
    rw [(this a.nSteps).1]
  obtain ⟨x, hxc⟩ : ∃ x, xs[c]? = some x := ⟨_, List.getElem?_eq_getElem hc⟩
  have hxc' := hx ▸ hxc
  have hc' : c < xs'.length := by
    by_contra hn
    rw [List.getElem?_eq_none (by omega)] at hxc'
    simp at hxc'
  have at_c : ∀ (rng : Rng F) (zs : List (Pos F d)), c < zs.length → zs[c]? = some x →
      (((splitN (.child k 1) zs.length).zip zs).map (fun p => a.single rng data p.1 p.2))[c]? = some (a.single rng data (.child (.child k 1) c) x) := by
    intro rng zs hz hzx
    rw [List.getElem?_map, List.zip, List.getElem?_zipWith, splitN_getElem?, hzx, if_pos hz]; rfl
  refine ⟨.child k 0, ((splitN (.child k 1) xs.length).zip xs).map (fun p => a.single e.rng data p.1 p.2),
    ((splitN (.child k 1) xs'.length).zip xs').map (fun p => a.single e'.rng data p.1 p.2), a.single e.rng data (.child (.child k 1) c) x, ?_, ?_,
    at_c _ _ hc hxc, (hs x) ▸ at_c _ _ hc' hxc'⟩
  · simp only [AdamOptimization.run, AdamOptimization.optimize, if_pos hb, split]
  · simp only [AdamOptimization.run, AdamOptimization.optimize, if_pos hb, split]

end FlowMC
