import Verif.Props.SamplerProps
import Verif.Props.StepCall
import Verif.Spec.Keys
import Verif.Spec.Run
/-
C13 and C29: chains are independent, and no random key is ever used twice.
-/
set_option linter.unusedSectionVars false
namespace FlowMC
open Spec

variable {F D : Type} {d : Nat} {M O : Type}

/-! ### the key tree -/

theorem desc_trans {a b c : Key} (h1 : Desc a b) (h2 : Desc b c) : Desc a c := by
  induction h2 with
  | refl => exact h1
  | child i _ ih => exact .child i ih

def depth : Key → Nat
  | .root _ => 0
  | .child k _ => depth k + 1

theorem desc_depth {a b : Key} (h : Desc a b) : depth a ≤ depth b := by
  induction h with
  | refl => exact Nat.le_refl _
  | child i _ ih => simp only [depth]; omega

theorem desc_child_self {k : Key} {i : Nat} : Desc k (.child k i) := .child i .refl

theorem not_desc_parent {k : Key} {i : Nat} : ¬ Desc (.child k i) k := by
  intro h
  have := desc_depth h
  simp only [depth] at this
  omega

theorem desc_inv {k a : Key} {i : Nat} (h : Desc k (.child a i)) : k = .child a i ∨ Desc k a := by
  cases h with
  | refl => exact Or.inl rfl
  | child _ h => exact Or.inr h

theorem desc_linear {x y a : Key} (h1 : Desc x a) (h2 : Desc y a) : Desc x y ∨ Desc y x := by
  induction h1 with
  | refl => exact Or.inr h2
  | child i hx ih =>
    rcases desc_inv h2 with rfl | h2
    · exact Or.inl (.child i hx)
    · exact ih h2

/-- Different children of a key have disjoint descendants. -/
theorem children_disjoint {k a : Key} {i j : Nat} (hij : i ≠ j) : ¬ (Desc (.child k i) a ∧ Desc (.child k j) a) := by
  rintro ⟨h1, h2⟩
  rcases desc_linear h1 h2 with h | h
  · rcases desc_inv h with h | h
    · exact hij (by injection h)
    · exact not_desc_parent h
  · rcases desc_inv h with h | h
    · exact hij (by injection h with _ h; exact h.symm)
    · exact not_desc_parent h

/-- Descendants of an unrelated child are `Between k` and the other child. -/
theorem between_child {k a : Key} {i j : Nat} (hij : i ≠ j) (h : Desc (.child k i) a) : Between k (.child k j) a :=
  ⟨desc_trans desc_child_self h, fun h' => children_disjoint hij ⟨h, h'⟩⟩

theorem Spec.AgreeOn.mono {S T : Key → Prop} {e e' : Env F D d M O} (h : AgreeOn T e e') (hs : ∀ k, S k → T k) : AgreeOn S e e' :=
  ⟨fun k a => h.normal k (hs k a), fun k a => h.uniform k (hs k a), fun k a => h.permutation k (hs k a),
    fun k a => h.choice k (hs k a), fun k a => h.sample k (hs k a), h.logProb, h.trainStep, h.setStats, h.big⟩

variable [Zero F] [One F] [Add F] [Mul F] [Div F] [Sub F] [Neg F] [NatCast F] [Transc F] [FCmp F]

/-! ### kernels and chains -/

/-- C29 (kernels). A kernel called with key `k` consults only keys derived from `k`. -/
theorem C29_kernel (e e' : Env F D d M O) (kr : KernelRes F d M) (K K' : LocalKernel F D d)
    (hK : kr.local? e.rng = some K) (hK' : kr.local? e'.rng = some K') (k : Key) (ha : AgreeOn (Desc k) e e')
    (x : Pos F d) (lp : F) (t : Target F D d) (data : Data D) : K k x lp t data = K' k x lp t data := by
  have n1 : e.rng.normal (.child k 0) d = e'.rng.normal (.child k 0) d := ha.normal _ desc_child_self d
  have u1 : e.rng.uniform (.child k 1) = e'.rng.uniform (.child k 1) := ha.uniform _ desc_child_self
  cases kr with
  | grw s => simp [KernelRes.local?] at hK hK'; subst hK hK'; simp only [grwKernel, split, n1, u1]
  | mala s => simp [KernelRes.local?] at hK hK'; subst hK hK'; simp only [malaKernel, split, n1, u1]
  | hmc s n m L => simp [KernelRes.local?] at hK hK'; subst hK hK'; simp only [hmcKernel, split, n1, u1]
  | nf m b => simp [KernelRes.local?] at hK

/-- Key carried after `j` steps: split `j` times, always keeping the first half. -/
def carryKey (k : Key) : Nat → Key
  | 0 => k
  | j + 1 => carryKey (.child k 0) j

theorem carryKey_succ (k : Key) (j : Nat) : carryKey k (j + 1) = .child (carryKey k j) 0 := by
  induction j generalizing k with
  | zero => rfl
  | succ j ih => exact ih (.child k 0)

theorem desc_carryKey (k : Key) (j : Nat) : Desc k (carryKey k j) := by
  induction j with
  | zero => exact .refl
  | succ j ih => rw [carryKey_succ]; exact .child 0 ih

theorem desc_carryKey_le (k : Key) {i j : Nat} (h : i ≤ j) : Desc (carryKey k i) (carryKey k j) := by
  induction j with
  | zero => have : i = 0 := by omega
            subst this; exact .refl
  | succ j ih =>
    rcases Nat.lt_or_ge i (j + 1) with h1 | h1
    · rw [carryKey_succ]; exact .child 0 (ih (by omega))
    · have : i = j + 1 := by omega
      subst this; exact .refl

/-- Key used by the kernel at step `j`. -/
def stepKey (k : Key) (j : Nat) : Key := .child (carryKey k j) 1

/-- C29 (steps). Step `j` of a serial chain with chain key `k` calls the kernel with key `stepKey k j`, on the state the
chain is in. -/
theorem C29_step_key (K : LocalKernel F D d) (t : Target F D d) (data : Data D) (n : Nat) (k : Key) (x : Pos F d) (j : Nat)
    (hj : j < n) : ∃ x' lp', posBefore x (serialSample K t data n k x) j = some x' ∧
      (serialSample K t data n k x)[j]? = some (K (stepKey k j) x' lp' t data) := by
  have hkey : ∀ j, (iterState (localBody K t data) j (k, x, t.val x data)).1 = carryKey k j := by
    intro j
    induction j with
    | zero => rfl
    | succ j ih => rw [iterState_succ', carryKey_succ]; simp only [localBody, split, ih]
  refine ⟨(iterState (localBody K t data) j (k, x, t.val x data)).2.1,
    (iterState (localBody K t data) j (k, x, t.val x data)).2.2, serialSample_state _ _ _ _ _ _ _ (by omega), ?_⟩
  simp only [serialSample, scanN_getElem?, hj, if_true, localBody, split, hkey, stepKey]

/-- C29 (steps). Different steps of a chain consult disjoint sets of keys. -/
theorem C29_steps_disjoint (k a : Key) (i j : Nat) (hij : i ≠ j) : ¬ (Desc (stepKey k i) a ∧ Desc (stepKey k j) a) := by
  have main : ∀ i j, i < j → ¬ (Desc (stepKey k i) a ∧ Desc (stepKey k j) a) := by
    intro i j h ⟨h1, h2⟩
    have h3 : Desc (.child (carryKey k i) 0) a :=
      desc_trans (by rw [← carryKey_succ]; exact desc_carryKey_le k (show i + 1 ≤ j by omega))
        (desc_trans desc_child_self h2)
    exact children_disjoint (by decide : (1 : Nat) ≠ 0) ⟨h1, h3⟩
  rcases Nat.lt_or_gt_of_ne hij with h | h
  · exact main i j h
  · exact fun ⟨h1, h2⟩ => main j i h ⟨h2, h1⟩

theorem serialSample_agree (e e' : Env F D d M O) (kr : KernelRes F d M) (K K' : LocalKernel F D d)
    (hK : kr.local? e.rng = some K) (hK' : kr.local? e'.rng = some K') (k : Key) (ha : AgreeOn (Desc k) e e')
    (t : Target F D d) (data : Data D) (n : Nat) (x : Pos F d) :
    serialSample K t data n k x = serialSample K' t data n k x := by
  unfold serialSample
  generalize t.val x data = lp
  induction n generalizing k x lp with
  | zero => rfl
  | succ n ih =>
    have hk := C29_kernel e e' kr K K' hK hK' (.child k 1) (ha.mono (fun a h => desc_trans desc_child_self h)) x lp t data
    have hb : localBody K t data (k, x, lp) = localBody K' t data (k, x, lp) := by simp only [localBody, split, hk]
    simp only [scanN, hb]
    have := ih (.child k 0) (ha.mono (fun a h => desc_trans desc_child_self h)) (localBody K' t data (k, x, lp)).1.2.1
      (localBody K' t data (k, x, lp)).1.2.2
    rw [show (localBody K' t data (k, x, lp)).1 = (.child k 0, (localBody K' t data (k, x, lp)).1.2.1,
      (localBody K' t data (k, x, lp)).1.2.2) from rfl, this]

theorem flowBatches_agree (e e' : Env F D d M O) (m : M) (ns n : Nat) (k : Key) (ha : AgreeOn (Desc k) e e') :
    flowBatches e.ops m ns n k = flowBatches e'.ops m ns n k := by
  induction n generalizing k with
  | zero => rfl
  | succ n ih =>
    simp only [flowBatches, split]
    rw [ha.sample _ desc_child_self, ih _ (ha.mono (fun a h => desc_trans desc_child_self h))]

theorem sampleFlow_agree (e e' : Env F D d M O) (m : M) (b n : Nat) (k : Key) (ha : AgreeOn (Desc k) e e') :
    sampleFlow e.ops m b k n = sampleFlow e'.ops m b k n := by
  unfold sampleFlow
  dsimp only
  rw [flowBatches_agree e e' m _ _ k ha, ha.logProb, ha.sample k .refl]

theorem nfScan_agree (e e' : Env F D d M O) (k : Key) (ha : AgreeOn (Desc k) e e') (c : NFCarry F d)
    (props : List (Pos F d × F × F)) : nfScan e.rng k c props = nfScan e'.rng k c props := by
  unfold nfScan
  induction props generalizing k c with
  | nil => rfl
  | cons p ps ih =>
    simp only [scan, split]
    rw [ha.uniform _ desc_child_self]
    exact congrArg (List.cons _) (ih (.child k 0) (ha.mono (fun a h => desc_trans desc_child_self h)) _)

theorem groupSample_agree (e e' : Env F D d M O) (m : M) (b : Nat) (t : Target F D d) (data : Data D) (n : Nat) (k : Key)
    (x : Pos F d) (ha : AgreeOn (Desc k) e e') :
    groupSample e m b t data n k x = groupSample e' m b t data n k x := by
  simp only [groupSample, nfKernel, split]
  rw [sampleFlow_agree e e' m b n _ (ha.mono (fun a h => desc_trans desc_child_self h)), ha.logProb]
  split
  · rfl
  · rw [nfScan_agree e e' _ (ha.mono (fun a h => desc_trans desc_child_self h))]

theorem local?_agree (e e' : Env F D d M O) (kr : KernelRes F d M) :
    (kr.local? (D := D) e.rng = none ↔ kr.local? (D := D) e'.rng = none) := by
  cases kr <;> simp [KernelRes.local?]

/-- The per-chain samplers of a stepper in two worlds: both undefined with the same exception, or both defined and equal on every
chain key below which the worlds agree. -/
theorem sampler_agree (e e' : Env F D d M O) (s : TakeSteps) (kr lr : Resource F D d M O) (data : Data D) :
    (∃ err, s.sampler e kr lr data = .error err ∧ s.sampler e' kr lr data = .error err) ∨
    ∃ f f', s.sampler e kr lr data = .ok f ∧ s.sampler e' kr lr data = .ok f' ∧
      ∀ k x, AgreeOn (Desc k) e e' → f k x = f' k x := by
  unfold TakeSteps.sampler
  cases kr with
  | kernel kr =>
    cases lr.target? with
    | none => exact Or.inl ⟨_, rfl, rfl⟩
    | some t =>
      dsimp only
      cases s.kind with
      | group =>
        cases kr with
        | nf m b => exact Or.inr ⟨_, _, rfl, rfl, fun k x ha => groupSample_agree e e' m b t data s.nSteps k x ha⟩
        | _ => exact Or.inl ⟨_, rfl, rfl⟩
      | serial =>
        dsimp only
        cases h : kr.local? (D := D) e.rng with
        | none =>
          rw [(local?_agree e e' kr).1 h]
          exact Or.inl ⟨_, rfl, rfl⟩
        | some K =>
          cases h' : kr.local? (D := D) e'.rng with
          | none => rw [(local?_agree e e' kr).2 h'] at h; simp at h
          | some K' =>
            refine Or.inr ⟨_, _, rfl, rfl, fun k x ha => ?_⟩
            rw [serialSample_agree e e' kr K K' h h' k ha]
  | _ => exact Or.inl ⟨_, rfl, rfl⟩

theorem mapE_congr {α β : Type} (f g : α → Except Err β) (xs : List α) (h : ∀ x ∈ xs, f x = g x) : mapE f xs = mapE g xs := by
  induction xs with
  | nil => rfl
  | cons x xs ih =>
    simp only [mapE, h x (by simp), ih (fun y hy => h y (by simp [hy]))]

/-! ### C13 -/

/-- C13. Chain `i` depends only on its own start and its own randomness: if two successful calls with the same key are made in two
PRNG worlds that agree on the keys of chain `i`, from start positions that agree for chain `i` (the other chains may start
anywhere and the other keys may draw anything), then chain `i` records the same rows and ends in the same position. -/
theorem C13_chain_independence [BufNum F] (e e' : Env F D d M O) (s : TakeSteps) (k : Key) (xs xs' : List (Pos F d)) (data : Data D)
    (h : Heap F D d M O) (p p' : StepPlan F d) (hp : s.plan e k xs data h = .ok p) (hp' : s.plan e' k xs' data h = .ok p')
    (i : Nat) (hx : xs[i]? = xs'[i]?)
    (ha : AgreeOn (Desc (.child (.child k 1) i)) e e') :
    p.rows[i]? = p'.rows[i]? := by
  simp only [TakeSteps.plan, bind, Except.bind, runChains_eq, split] at hp hp'
  revert hp hp'
  cases h.getState s.stateName with
  | error _ => intro hp; simp at hp
  | ok st =>
    dsimp only
    cases bufferTarget st s.bufferNames 0 with
    | error _ => intro hp; simp at hp
    | ok P =>
    dsimp only
    cases bufferTarget st s.bufferNames 1 with
    | error _ => intro hp; simp at hp
    | ok L =>
    dsimp only
    cases bufferTarget st s.bufferNames 2 with
    | error _ => intro hp; simp at hp
    | ok A =>
    dsimp only
    cases h.getBuffer P with
    | error _ => intro hp; simp at hp
    | ok bP =>
    dsimp only
    cases h.getBuffer L with
    | error _ => intro hp; simp at hp
    | ok bL =>
    dsimp only
    cases h.getBuffer A with
    | error _ => intro hp; simp at hp
    | ok bA =>
    dsimp only
    cases h.get s.kernelName with
    | error _ => intro hp; simp at hp
    | ok kr =>
    dsimp only
    cases h.get s.logpdfName with
    | error _ => intro hp; simp at hp
    | ok lr =>
    dsimp only
    rcases sampler_agree e e' s kr lr data with ⟨err, h1, h2⟩ | ⟨f, f', h1, h2, hff⟩
    · rw [h1]; intro hp; simp at hp
    · rw [h1, h2]
      dsimp only
      cases hm : mapE (fun a : Key × Pos F d => f a.1 a.2) ((splitN (Key.child k 1) xs.length).zip xs) with
      | error _ => intro hp; simp at hp
      | ok rows =>
        cases hm' : mapE (fun a : Key × Pos F d => f' a.1 a.2) ((splitN (Key.child k 1) xs'.length).zip xs') with
        | error _ => intro _ hp; simp at hp
        | ok rows' =>
          dsimp only
          by_cases ht : s.thinning = 0
          · simp [ht]
          · simp only [ht, if_false, Except.ok.injEq]
            intro hp hp'
            subst hp hp'
            dsimp only
            rw [List.getElem?_map, List.getElem?_map]
            congr 1
            have g := List.forall₂_iff_get.1 ((mapE_ok_iff _ _ _).1 hm)
            have g' := List.forall₂_iff_get.1 ((mapE_ok_iff _ _ _).1 hm')
            have l1 : rows.length = xs.length := by rw [← g.1]; simp [splitN_length]
            have l2 : rows'.length = xs'.length := by rw [← g'.1]; simp [splitN_length]
            by_cases hi : i < xs.length
            · have hi' : i < xs'.length := by
                rw [List.getElem?_eq_getElem hi] at hx
                exact (List.getElem?_eq_some_iff.1 hx.symm).1
              have a1 := g.2 i (by simp [splitN_length, hi]) (by omega)
              have a2 := g'.2 i (by simp [splitN_length, hi']) (by omega)
              simp only [List.get_eq_getElem, List.getElem_zip, splitN, List.getElem_map, List.getElem_range] at a1 a2
              have hxe : xs[i] = xs'[i] := by
                rw [List.getElem?_eq_getElem hi, List.getElem?_eq_getElem hi'] at hx
                exact Option.some.inj hx
              rw [List.getElem?_eq_getElem (by omega), List.getElem?_eq_getElem (by omega)]
              rw [hff _ _ ha, hxe, a2] at a1
              simp only [Except.ok.injEq] at a1
              rw [a1]
            · have hi' : ¬ i < xs'.length := by
                intro hi'
                rw [List.getElem?_eq_none (by omega), List.getElem?_eq_getElem hi'] at hx
                simp at hx
              rw [List.getElem?_eq_none (by omega), List.getElem?_eq_none (by omega)]

/-- C13 (recorded). The same at the level of the buffers, for serial steppers: chain `i`'s recorded positions, log-probabilities and
acceptance flags and its final position coincide in the two calls. -/
theorem C13_recorded [BufNum F] (e e' : Env F D d M O) (s : TakeSteps) (k : Key) (xs xs' : List (Pos F d)) (data : Data D)
    (h : Heap F D d M O) (T : Nat) (P L A : String) (bP bL bA : Buffer F) (hpt : PointsAt h s P L A)
    (hr : Recorders h xs.length T P L A bP bL bA) (hfit : h.pos s.ident + ceilDiv' s.nSteps s.thinning ≤ T)
    (kr : KernelRes F d M) (K K' : LocalKernel F D d) (t : Target F D d) (hs : SerialSite e s h kr K t)
    (hs' : SerialSite e' s h kr K' t) (ht : 0 < s.thinning) (hn : 0 < s.nSteps)
    (hlen : xs'.length = xs.length) (i : Nat) (hi : i < xs.length) (hx : xs[i]? = xs'[i]?)
    (ha : AgreeOn (Desc (.child (.child k 1) i)) e e') :
    ∃ ys h1 ys' h1' p l a p' l' a', s.run e k xs data h = (.ok (Key.child k 0, ys), h1) ∧
      s.run e' k xs' data h = (.ok (Key.child k 0, ys'), h1') ∧
      (h1.res P = some (.buffer p) ∧ h1.res L = some (.buffer l) ∧ h1.res A = some (.buffer a)) ∧
      (h1'.res P = some (.buffer p') ∧ h1'.res L = some (.buffer l') ∧ h1'.res A = some (.buffer a')) ∧
      ys[i]? = ys'[i]? ∧
      ∀ j, j < ceilDiv' s.nSteps s.thinning →
        (∀ c : Fin d, p.data.get [i, h.pos s.ident + j, c] = p'.data.get [i, h.pos s.ident + j, c]) ∧
        l.data.get [i, h.pos s.ident + j] = l'.data.get [i, h.pos s.ident + j] ∧
        a.data.get [i, h.pos s.ident + j] = a'.data.get [i, h.pos s.ident + j] := by
  obtain ⟨ys, h1, r1, e1, -, y1⟩ := serial_call e s k xs data h T P L A bP bL bA hpt hr hfit kr K t hs ht hn
  obtain ⟨ys', h1', r1', e1', -, y1'⟩ := serial_call e' s k xs' data h T P L A bP bL bA hpt (hlen ▸ hr) hfit kr K' t hs' ht hn
  obtain ⟨p, p1, p2⟩ := e1.pos
  obtain ⟨l, l1, l2⟩ := e1.logp
  obtain ⟨a, a1, a2⟩ := e1.acc
  obtain ⟨p', p1', p2'⟩ := e1'.pos
  obtain ⟨l', l1', l2'⟩ := e1'.logp
  obtain ⟨a', a1', a2'⟩ := e1'.acc
  have hi' : i < xs'.length := by omega
  have hrow : (serialRows K t data s.nSteps k xs)[i]? = (serialRows K' t data s.nSteps k xs')[i]? := by
    rw [serialRows_cell, serialRows_cell, hx]
    congr 1
    funext x
    exact serialSample_agree e e' kr K K' hs.isLocal hs'.isLocal _ ha t data s.nSteps x
  refine ⟨ys, h1, ys', h1', p, l, a, p', l', a', r1, r1', ⟨p1, l1, a1⟩, ⟨p1', l1', a1'⟩, ?_, ?_⟩
  · rw [y1, y1', hrow]
  · intro j hj
    have hjt := lt_of_lt_ceil ht hn hj
    have hl := serialSample_length K t data s.nSteps (Key.child (Key.child k 1) i) xs[i]
    have hc : cellOf ((serialRows K t data s.nSteps k xs).map (everyNth s.thinning)) i j =
        some ((serialSample K t data s.nSteps (Key.child (Key.child k 1) i) xs[i])[j * s.thinning]'(by omega)) := by
      rw [cell_everyNth _ ht]
      simp [cellOf, serialRows_cell, hi, hl, hjt]
    have hc' : cellOf ((serialRows K' t data s.nSteps k xs').map (everyNth s.thinning)) i j =
        some ((serialSample K t data s.nSteps (Key.child (Key.child k 1) i) xs[i])[j * s.thinning]'(by omega)) := by
      rw [← hc, cell_everyNth _ ht, cell_everyNth _ ht]
      simp only [cellOf, hrow]
    refine ⟨fun c => ?_, ?_, ?_⟩
    · rw [p2.inside i j _ hi hj (by rw [hc]; rfl) c, p2'.inside i j _ hi' hj (by rw [hc']; rfl) c]
    · rw [l2.inside i j _ hi hj (by rw [hc]; rfl), l2'.inside i j _ hi' hj (by rw [hc']; rfl)]
    · rw [a2.inside i j _ hi hj (by rw [hc]; rfl), a2'.inside i j _ hi' hj (by rw [hc']; rfl)]

/-! ### C29: strategies -/

/-- C29 (step strategies). A step call with key `k` consults no key derived from the key `child k 0` it returns, and none
outside the descendants of `k`. -/
theorem C29_takeSteps [BufNum F] (e e' : Env F D d M O) (s : TakeSteps) (k : Key) (xs : List (Pos F d)) (data : Data D)
    (h : Heap F D d M O) (ha : AgreeOn (Between k (.child k 0)) e e') : s.run e k xs data h = s.run e' k xs data h := by
  have hp : s.plan e k xs data h = s.plan e' k xs data h := by
    simp only [TakeSteps.plan, bind, Except.bind, runChains_eq, split]
    cases h.getState s.stateName with
    | error _ => rfl
    | ok st =>
    dsimp only
    cases bufferTarget st s.bufferNames 0 with
    | error _ => rfl
    | ok P =>
    dsimp only
    cases bufferTarget st s.bufferNames 1 with
    | error _ => rfl
    | ok L =>
    dsimp only
    cases bufferTarget st s.bufferNames 2 with
    | error _ => rfl
    | ok A =>
    dsimp only
    cases h.getBuffer P with
    | error _ => rfl
    | ok bP =>
    dsimp only
    cases h.getBuffer L with
    | error _ => rfl
    | ok bL =>
    dsimp only
    cases h.getBuffer A with
    | error _ => rfl
    | ok bA =>
    dsimp only
    cases h.get s.kernelName with
    | error _ => rfl
    | ok kr =>
    dsimp only
    cases h.get s.logpdfName with
    | error _ => rfl
    | ok lr =>
    dsimp only
    rcases sampler_agree e e' s kr lr data with ⟨err, h1, h2⟩ | ⟨f, f', h1, h2, hff⟩
    · rw [h1, h2]
    · rw [h1, h2]
      dsimp only
      rw [mapE_congr (fun a : Key × Pos F d => f a.1 a.2) (fun a : Key × Pos F d => f' a.1 a.2)]
      intro a ham
      apply hff
      obtain ⟨i, hi⟩ : ∃ i, a.1 = .child (.child k 1) i := by
        have := (List.of_mem_zip ham).1
        simp only [splitN, List.mem_map] at this
        obtain ⟨i, _, hi⟩ := this
        exact ⟨i, hi.symm⟩
      rw [hi]
      exact ha.mono (fun b hb => between_child (by decide) (desc_trans desc_child_self hb))
  unfold TakeSteps.run
  rw [hp]

/-- C29 (chains). The chains of one call consult disjoint sets of keys (chain `i` those below `child (child k 1) i`, by C13). -/
theorem C29_chains_disjoint (k a : Key) (i j : Nat) (hij : i ≠ j) :
    ¬ (Desc (.child (.child k 1) i) a ∧ Desc (.child (.child k 1) j) a) := children_disjoint hij

theorem trainEpoch_agree (e e' : Env F D d M O) (k : Key) (S : Key → Prop) (ha : AgreeOn S e e') (hS : S k) (m : M) (o : O)
    (data : List (Pos F d)) (b : Nat) :
    trainEpoch e.rng e.ops e.big k m o data b = trainEpoch e'.rng e'.ops e'.big k m o data b := by
  have htb : ∀ bs s, trainBatches e.ops data bs s = trainBatches e'.ops data bs s := by
    intro bs
    induction bs with
    | nil => intro s; rfl
    | cons b bs ih => intro s; simp only [trainBatches, ha.trainStep, ih]
  unfold trainEpoch epochBatches
  rw [ha.permutation k hS, ha.big, ha.trainStep, htb]

theorem trainLoop_agree (e e' : Env F D d M O) (data : List (Pos F d)) (b : Nat) (n : Nat) (s : TrainState F M O)
    (ha : AgreeOn (Between s.rng (carryKey s.rng n)) e e') :
    trainLoop e.rng e.ops e.big data b n s = trainLoop e'.rng e'.ops e'.big data b n s ∧
      (trainLoop e.rng e.ops e.big data b n s).rng = carryKey s.rng n := by
  induction n generalizing s with
  | zero => exact ⟨rfl, rfl⟩
  | succ n ih =>
    have hS : Between s.rng (carryKey s.rng (n + 1)) (.child s.rng 1) := by
      refine ⟨desc_child_self, fun h => ?_⟩
      have h2 : Desc (.child s.rng 0) (.child s.rng 1) := desc_trans (desc_carryKey_le s.rng (show 1 ≤ n + 1 by omega)) h
      rcases desc_inv h2 with h3 | h3
      · injection h3 with _ h4; exact absurd h4 (by decide)
      · exact not_desc_parent h3
    have hep := trainEpoch_agree e e' (.child s.rng 1) _ ha hS s.model s.state data b
    have hb : trainLoopBody e.rng e.ops e.big data b s = trainLoopBody e'.rng e'.ops e'.big data b s := by
      simp only [trainLoopBody, split, hep]
      rfl
    simp only [trainLoop]
    rw [hb]
    refine ih (trainLoopBody e'.rng e'.ops e'.big data b s) (ha.mono fun a h => ?_)
    exact ⟨desc_trans desc_child_self h.1, h.2⟩

/-- The key a `TrainModel` call returns. -/
def trainOut (k : Key) (nEpochs : Nat) : Key := carryKey (.child (.child k 0) 1) nEpochs

theorem trainPlan_agree [BufNum F] (e e' : Env F D d M O) (s : TrainModel) (k : Key) (h : Heap F D d M O)
    (ha : AgreeOn (Between k (trainOut k s.nEpochs)) e e') :
    s.plan e k h = s.plan e' k h ∧ ∀ r, s.plan e k h = .ok r → r.rng = trainOut k s.nEpochs := by
  have hnot : ∀ a, Desc (.child k 1) a → ¬ Desc (trainOut k s.nEpochs) a := by
    intro a h1 h2
    have h3 : Desc (.child k 0) a := desc_trans (desc_trans desc_child_self (desc_carryKey _ _)) h2
    exact children_disjoint (by decide : (1 : Nat) ≠ 0) ⟨h1, h3⟩
  simp only [TrainModel.plan, bind, Except.bind, split]
  cases h.getModel s.modelName with
  | error _ => exact ⟨rfl, by simp⟩
  | ok m =>
  dsimp only
  cases h.getBuffer s.dataName with
  | error _ => exact ⟨rfl, by simp⟩
  | ok b =>
  dsimp only
  cases h.getOptimizer s.optimizerName with
  | error _ => exact ⟨rfl, by simp⟩
  | ok o =>
  dsimp only
  split
  · split
    · rename_i nc ns dd hsh hdd
      cases trainingRows (d := d) b.data nc ns s.historyWindow with
      | error _ => exact ⟨rfl, by simp⟩
      | ok rows =>
        dsimp only
        split
        · exact ⟨rfl, by simp⟩
        · rw [ha.choice (.child k 1) ⟨desc_child_self, hnot _ .refl⟩]
          generalize (e'.rng.choice (.child k 1) rows.length s.nMaxExamples).filterMap (rows[·]?) = chosen
          unfold train
          split
          · exact ⟨rfl, by simp⟩
          · have := trainLoop_agree e e' chosen s.batchSize s.nEpochs
              (trainInit e.ops e.big (.child (.child k 0) 1) m o chosen)
              (ha.mono fun a h => ⟨desc_trans (.child 1 desc_child_self) h.1, h.2⟩)
            have hi : trainInit e.ops e.big (.child (.child k 0) 1) m o chosen =
              trainInit e'.ops e'.big (.child (.child k 0) 1) m o chosen := by
              simp only [trainInit, ha.setStats, ha.big]
            refine ⟨?_, ?_⟩
            · dsimp only
              rw [this.1, hi]
            · intro r hr
              simp only [Except.ok.injEq] at hr
              subst hr
              exact this.2
    · exact ⟨rfl, by simp⟩
  · exact ⟨rfl, by simp⟩

/-- C29 (TrainModel). -/
theorem C29_trainModel [BufNum F] (e e' : Env F D d M O) (s : TrainModel) (k : Key) (xs : List (Pos F d)) (h : Heap F D d M O)
    (ha : AgreeOn (Between k (trainOut k s.nEpochs)) e e') : s.run e k xs h = s.run e' k xs h := by
  unfold TrainModel.run
  rw [(trainPlan_agree e e' s k h ha).1]

theorem exchScan_agree (e e' : Env F D d M O) (Ts : List F) (n i : Nat) (k : Key) (ha : AgreeOn (Desc k) e e') (c : ExchCarry F d) :
    exchScan e.rng Ts n i k c = exchScan e'.rng Ts n i k c := by
  induction n generalizing i k c with
  | zero => rfl
  | succ n ih =>
    simp only [exchScan, split]
    rw [ha.uniform _ desc_child_self, ih _ _ (ha.mono fun a h => desc_trans desc_child_self h)]

theorem individualStep_agree (e e' : Env F D d M O) (kr : KernelRes F d M) (K K' : LocalKernel F D d)
    (hK : kr.local? e.rng = some K) (hK' : kr.local? e'.rng = some K') (k : Key) (ha : AgreeOn (Desc k) e e')
    (l : TemperedPDF F D d) (data : Data D) (n : Nat) (x : Pos F d) (T : F) :
    individualStep K l data n k x T = individualStep K' l data n k x T := by
  unfold individualStep
  dsimp only
  generalize (l.tempered T).val x data = lp
  suffices h : (scanN (localBody K (l.tempered T) data) n (k, x, lp)).1 =
      (scanN (localBody K' (l.tempered T) data) n (k, x, lp)).1 by rw [h]
  induction n generalizing k x lp with
  | zero => rfl
  | succ n ih =>
    have hk := C29_kernel e e' kr K K' hK hK' (.child k 1) (ha.mono (fun a h => desc_trans desc_child_self h)) x lp
      (l.tempered T) data
    have hb : localBody K (l.tempered T) data (k, x, lp) = localBody K' (l.tempered T) data (k, x, lp) := by
      simp only [localBody, split, hk]
    simp only [scanN, hb]
    exact ih (.child k 0) (ha.mono (fun a h => desc_trans desc_child_self h)) (localBody K' (l.tempered T) data (k, x, lp)).1.2.1
      (localBody K' (l.tempered T) data (k, x, lp)).1.2.2

/-- The key a `ParallelTempering` call returns. -/
def ptOut (k : Key) : Key := .child (.child (.child k 0) 0) 0

theorem ptPlan_agree [BufNum F] (e e' : Env F D d M O) (s : ParallelTempering) (k : Key) (xs : List (Pos F d)) (data : Data D)
    (h : Heap F D d M O) (ha : AgreeOn (Between k (ptOut k)) e e') :
    s.plan e k xs data h = s.plan e' k xs data h ∧ ∀ r, s.plan e k xs data h = .ok r → r.outKey = ptOut k := by
  have hmove : ∀ a, Desc (.child (.child k 0) 1) a → Between k (ptOut k) a := by
    intro a h1
    refine ⟨desc_trans (.child 1 desc_child_self) h1, fun h2 => ?_⟩
    have h3 : Desc (.child (.child k 0) 0) a := desc_trans desc_child_self h2
    exact children_disjoint (by decide : (1 : Nat) ≠ 0) ⟨h1, h3⟩
  have hexch : ∀ a, Desc (.child (.child (.child k 0) 0) 1) a → Between k (ptOut k) a := by
    intro a h1
    refine ⟨desc_trans (.child 1 (.child 0 desc_child_self)) h1, fun h2 => ?_⟩
    exact children_disjoint (by decide : (1 : Nat) ≠ 0) ⟨h1, h2⟩
  simp only [ParallelTempering.plan, bind, Except.bind, split]
  cases h.getKernel s.kernelName with
  | error _ => exact ⟨rfl, by simp⟩
  | ok kr =>
  dsimp only
  cases h.getTempered s.temperedLogpdfName with
  | error _ => exact ⟨rfl, by simp⟩
  | ok l =>
  dsimp only
  cases nthName s.bufferNames 0 with
  | error _ => exact ⟨rfl, by simp⟩
  | ok P =>
  dsimp only
  cases h.getBuffer P with
  | error _ => exact ⟨rfl, by simp⟩
  | ok pb =>
  dsimp only
  cases nthName s.bufferNames 1 with
  | error _ => exact ⟨rfl, by simp⟩
  | ok Tn =>
  dsimp only
  cases h.getBuffer Tn with
  | error _ => exact ⟨rfl, by simp⟩
  | ok tb =>
  dsimp only
  cases h.getState s.stateName with
  | error _ => exact ⟨rfl, by simp⟩
  | ok st =>
  dsimp only
  cases hK : kr.local? (D := D) e.rng with
  | none => rw [(local?_agree e e' kr).1 hK]; exact ⟨rfl, by simp⟩
  | some K =>
  cases hK' : kr.local? (D := D) e'.rng with
  | none => rw [(local?_agree e e' kr).2 hK'] at hK; simp at hK
  | some K' =>
    split
    · rename_i K1 nc nr dd nt hKK hsh1 hsh2
      simp only [hsh1, hsh2]
      simp only [Option.some.injEq] at hKK
      subst hKK
      split
      · -- the moves
        have hmoved : ((splitN (.child (.child k 0) 1) xs.length).zip (withReplicas xs pb.data nr)).map
              (fun a => ensembleStep K l data s.nSteps a.1 a.2 ((List.range nt).map (fun i => tb.data.get [i]))) =
            ((splitN (.child (.child k 0) 1) xs.length).zip (withReplicas xs pb.data nr)).map
              (fun a => ensembleStep K' l data s.nSteps a.1 a.2 ((List.range nt).map (fun i => tb.data.get [i]))) := by
          apply List.map_congr_left
          intro a ham
          have := (List.of_mem_zip ham).1
          simp only [splitN, List.mem_map] at this
          obtain ⟨i, _, hi⟩ := this
          unfold ensembleStep
          apply List.map_congr_left
          intro b hbm
          have := (List.of_mem_zip hbm).1
          simp only [splitN, List.mem_map] at this
          obtain ⟨j, _, hj⟩ := this
          apply individualStep_agree e e' kr K K' hK hK'
          rw [← hj, ← hi]
          exact ha.mono (fun c hc => hmove c (desc_trans (.child j desc_child_self) hc))
        rw [hmoved]
        generalize ((splitN (.child (.child k 0) 1) xs.length).zip (withReplicas xs pb.data nr)).map
              (fun a => ensembleStep K' l data s.nSteps a.1 a.2 ((List.range nt).map (fun i => tb.data.get [i]))) = moved
        have hex : ((splitN (.child (.child (.child k 0) 0) 1) xs.length).zip moved).map
              (fun a => exchange e.rng l data ((List.range nt).map (fun i => tb.data.get [i])) a.1 a.2) =
            ((splitN (.child (.child (.child k 0) 0) 1) xs.length).zip moved).map
              (fun a => exchange e'.rng l data ((List.range nt).map (fun i => tb.data.get [i])) a.1 a.2) := by
          apply List.map_congr_left
          intro a ham
          have := (List.of_mem_zip ham).1
          simp only [splitN, List.mem_map] at this
          obtain ⟨i, _, hi⟩ := this
          unfold exchange
          rw [exchScan_agree e e' _ _ _ a.1 ?_]
          rw [← hi]
          exact ha.mono (fun c hc => hexch c (desc_trans desc_child_self hc))
        rw [hex]
        cases st.data "training" with
        | none => exact ⟨rfl, by simp⟩
        | some v =>
          refine ⟨rfl, ?_⟩
          intro r hr
          simp only [Except.ok.injEq] at hr
          subst hr
          rfl
      · exact ⟨rfl, by simp⟩
    · rename_i hneg
      constructor
      · split
        · rename_i K1 nc nr dd nt hKK hsh1 hsh2
          exact (hneg K nc nr dd nt rfl hsh1 hsh2).elim
        · rfl
      · simp

/-- C29 (ParallelTempering). -/
theorem C29_parallelTempering [BufNum F] (e e' : Env F D d M O) (s : ParallelTempering) (k : Key) (xs : List (Pos F d))
    (data : Data D) (h : Heap F D d M O) (ha : AgreeOn (Between k (ptOut k)) e e') :
    s.run e k xs data h = s.run e' k xs data h := by
  unfold ParallelTempering.run
  rw [(ptPlan_agree e e' s k xs data h ha).1]

/-! ### C29: whole runs -/

/-- The key a strategy hands to the next one (`custom` strategies are not covered). -/
def nextKey : Strategy F D d M O → Key → Key
  | .takeSteps _, k => .child k 0
  | .trainModel s, k => trainOut k s.nEpochs
  | .updateState _, k => k
  | .lambda _, k => k
  | .parallelTempering _, k => ptOut k
  | .custom _, k => k

def Strategy.builtin : Strategy F D d M O → Bool
  | .custom _ => false
  | _ => true

/-- C29 (footprint). A built-in strategy called with `k` consults only keys that descend from `k` and not from the key it
hands on. -/
theorem C29_footprint [BufNum F] (e e' : Env F D d M O) (s : Strategy F D d M O) (hs : s.builtin = true) (k : Key) (xs : List (Pos F d))
    (data : Data D) (h : Heap F D d M O) (ha : AgreeOn (Between k (nextKey s k)) e e') :
    s.run e k xs data h = s.run e' k xs data h := by
  cases s with
  | takeSteps s => exact C29_takeSteps e e' s k xs data h ha
  | trainModel s => exact C29_trainModel e e' s k xs h ha
  | updateState s => rfl
  | lambda f => rfl
  | parallelTempering s => exact C29_parallelTempering e e' s k xs data h ha
  | custom f => simp [Strategy.builtin] at hs

/-- C29 (key handed on). A successful built-in strategy returns `nextKey`, which descends from its own key. -/
theorem C29_next_key [BufNum F] (e : Env F D d M O) (s : Strategy F D d M O) (hs : s.builtin = true) (k : Key) (xs : List (Pos F d))
    (data : Data D) (h : Heap F D d M O) (k' : Key) (ys : List (Pos F d)) (h' : Heap F D d M O)
    (hr : s.run e k xs data h = (.ok (k', ys), h')) : k' = nextKey s k ∧ Desc k k' := by
  have self : AgreeOn (fun _ => True) e e := ⟨fun _ _ _ => rfl, fun _ _ => rfl, fun _ _ _ => rfl, fun _ _ _ _ => rfl,
    fun _ _ _ _ => rfl, rfl, rfl, rfl, rfl⟩
  suffices hk : k' = nextKey s k by
    refine ⟨hk, ?_⟩
    subst hk
    cases s with
    | takeSteps s => exact desc_child_self
    | trainModel s => exact desc_trans (.child 1 desc_child_self) (desc_carryKey _ _)
    | updateState s => exact .refl
    | lambda f => exact .refl
    | parallelTempering s => exact .child 0 (.child 0 desc_child_self)
    | custom f => exact .refl
  cases s with
  | takeSteps s =>
    simp only [Strategy.run, TakeSteps.run] at hr
    cases hp : s.plan e k xs data h with
    | error _ => rw [hp] at hr; simp at hr
    | ok p =>
      rw [hp] at hr
      dsimp only at hr
      have hout : p.outKey = .child k 0 := by
        simp only [TakeSteps.plan, bind, Except.bind, split] at hp
        repeat' (split at hp; · simp at hp)
        simp only [Except.ok.injEq] at hp
        subst hp; rfl
      simp only [TakeSteps.commit] at hr
      split at hr
      · simp at hr
      · split at hr
        · simp at hr
        · split at hr
          · simp at hr
          · split at hr
            · simp at hr
            · simp only [Prod.mk.injEq, Except.ok.injEq] at hr
              rw [← hr.1.1, hout]; rfl
  | trainModel s =>
    simp only [Strategy.run, TrainModel.run] at hr
    cases hp : s.plan e k h with
    | error _ => rw [hp] at hr; simp at hr
    | ok r =>
      rw [hp] at hr
      dsimp only at hr
      have := (trainPlan_agree e e s k h (self.mono fun _ _ => trivial)).2 r hp
      split at hr
      · simp at hr
      · simp only [Prod.mk.injEq, Except.ok.injEq] at hr
        rw [← hr.1.1, this]; rfl
  | updateState s =>
    simp only [Strategy.run, UpdateState.run] at hr
    split at hr
    · simp at hr
    · simp only [Prod.mk.injEq, Except.ok.injEq] at hr
      rw [← hr.1.1]; rfl
  | lambda f =>
    simp only [Strategy.run, runLambda] at hr
    split at hr
    · simp at hr
    · simp only [Prod.mk.injEq, Except.ok.injEq] at hr
      rw [← hr.1.1]; rfl
  | parallelTempering s =>
    simp only [Strategy.run, ParallelTempering.run] at hr
    cases hp : s.plan e k xs data h with
    | error _ => rw [hp] at hr; simp at hr
    | ok p =>
      rw [hp] at hr
      dsimp only at hr
      have hk := (ptPlan_agree e e s k xs data h (self.mono fun _ _ => trivial)).2 p hp
      split at hr
      · split at hr
        · simp at hr
        · split at hr
          · simp at hr
          · simp only [Prod.mk.injEq, Except.ok.injEq] at hr
            rw [← hr.1.1, hk]; rfl
      · simp only [Prod.mk.injEq, Except.ok.injEq] at hr
        rw [← hr.1.1, hk]; rfl
  | custom f => simp [Strategy.builtin] at hs

/-- A completed run together with the list of keys: `keys[i]` is handed to the `i`-th strategy, the last one is returned. -/
inductive KeyTrace [BufNum F] (env : Env F D d M O) (strats : String → Option (Strategy F D d M O)) (data : Data D) :
    List String → World F D d M O → List Key → Prop
  | done (w) : KeyTrace env strats data [] w [w.key]
  | next {name names s w keys k' xs' h'} (hs : strats name = some s) (hb : s.builtin = true)
      (hr : s.run env w.key w.xs data w.heap = (.ok (k', xs'), h'))
      (rest : KeyTrace env strats data names ⟨k', xs', h'⟩ keys) :
      KeyTrace env strats data (name :: names) w (w.key :: keys)

theorem keyTrace_head [BufNum F] {env : Env F D d M O} {strats : String → Option (Strategy F D d M O)} {data : Data D} {names : List String}
    {w : World F D d M O} {keys : List Key} (h : KeyTrace env strats data names w keys) : keys[0]? = some w.key := by
  cases h <;> rfl

theorem keyTrace_desc [BufNum F] {env : Env F D d M O} {strats : String → Option (Strategy F D d M O)} {data : Data D} {names : List String}
    {w : World F D d M O} {keys : List Key} (h : KeyTrace env strats data names w keys) (i : Nat) (ki : Key)
    (hi : keys[i]? = some ki) : Desc w.key ki := by
  induction h generalizing i ki with
  | done w =>
    cases i with
    | zero => simp at hi; subst hi; exact .refl
    | succ i => simp at hi
  | next hs hb hr rest ih =>
    cases i with
    | zero => simp at hi; subst hi; exact .refl
    | succ i =>
      simp only [List.getElem?_cons_succ] at hi
      exact desc_trans (C29_next_key _ _ hb _ _ _ _ _ _ _ hr).2 (ih i ki hi)

/-- C29. Within one run, the key sets available to different strategy calls are disjoint (and by `C29_footprint` each call
consults only its own set): no key is used twice. -/
theorem C29_run_disjoint [BufNum F] (env : Env F D d M O) (strats : String → Option (Strategy F D d M O)) (data : Data D)
    (names : List String) (w : World F D d M O) (keys : List Key) (h : KeyTrace env strats data names w keys)
    (i j : Nat) (hij : i < j) (ki ki' kj kj' : Key) (h1 : keys[i]? = some ki) (h2 : keys[i + 1]? = some ki')
    (h3 : keys[j]? = some kj) (h4 : keys[j + 1]? = some kj') (a : Key) :
    ¬ (Between ki ki' a ∧ Between kj kj' a) := by
  rintro ⟨ha, hb⟩
  apply ha.2
  have hd : Desc ki' kj := by
    clear ha hb h4 h1
    induction h generalizing i j with
    | done w => simp at h2
    | next hs hb hr rest ih =>
      cases j with
      | zero => omega
      | succ j =>
        simp only [List.getElem?_cons_succ] at h2 h3
        cases i with
        | zero =>
          rw [keyTrace_head rest] at h2
          simp only [Option.some.injEq] at h2
          subst h2
          exact keyTrace_desc rest j kj h3
        | succ i => exact ih i j (by omega) h2 h3
  exact desc_trans hd hb.1

theorem completes_keyTrace [BufNum F] {env : Env F D d M O} {strats : String → Option (Strategy F D d M O)} {data : Data D} {names : List String} {w w' : World F D d M O}
    (hb : ∀ n s, strats n = some s → s.builtin = true) (h : Completes env strats data names w w') :
    ∃ keys, KeyTrace env strats data names w keys ∧ keys.length = names.length + 1 := by
  induction h with
  | done w => exact ⟨_, .done w, rfl⟩
  | next hs hr _ ih =>
    obtain ⟨keys, hk, hl⟩ := ih
    exact ⟨_, .next hs (hb _ _ hs) hr hk, by simp [hl]⟩

/-- **C29, one `sample` call.** A `sample` call that returns ran its strategies with keys `keys[0], keys[1], …`: the first is the sampler's own, each call received the key its
predecessor returned, and no two calls share a key. -/
theorem C29_sample [BufNum F] {V : Type} (env : Env F D d M O) (s : Sampler F D d M O V) (hb : ∀ n t, s.strategies n = some t → t.builtin = true) (order : List String)
    (ho : s.strategyOrder = some order) (init : InitPos F d) (data : Data D) (s' : Sampler F D d M O V) (hr : s.sample env init data = (.ok (), s')) :
    ∃ keys, KeyTrace env s.strategies data order ⟨s.rngKey, init.atleast2d, s.heap⟩ keys ∧ keys.length = order.length + 1 ∧ keys[0]? = some s.rngKey ∧
      ∀ i j, i < j → ∀ ki ki' kj kj', keys[i]? = some ki → keys[i + 1]? = some ki' → keys[j]? = some kj → keys[j + 1]? = some kj' →
        ∀ a, ¬ (Between ki ki' a ∧ Between kj kj' a) := by
  obtain ⟨w, hw⟩ : ∃ w, Completes env s.strategies data order ⟨s.rngKey, init.atleast2d, s.heap⟩ w := by
    unfold Sampler.sample at hr
    rw [ho] at hr
    dsimp only at hr
    cases hro : runOrder env s.strategies order s.rngKey init.atleast2d data s.heap with
    | mk res h2 =>
      rw [hro] at hr
      cases res with
      | error e => simp at hr
      | ok q => exact ⟨⟨q.1, q.2, h2⟩, (C08_sequential env s.strategies data order _ _ _ _ _ _).1 hro⟩
  obtain ⟨keys, hk, hl⟩ := completes_keyTrace hb hw
  exact ⟨keys, hk, hl, keyTrace_head hk, fun i j hij ki ki' kj kj' h1 h2 h3 h4 a => C29_run_disjoint env s.strategies data order _ keys hk i j hij ki ki' kj kj' h1 h2 h3 h4 a⟩

/-- Non-vacuity of C29: a two-call trace of the toy stepper. -/
example : ∃ keys, KeyTrace Toy.env (fun n => if n = "s" then some (.takeSteps (Toy.stepper 2 1)) else none) Toy.data ["s", "s"]
    ⟨.root 0, Toy.start, Toy.heap 6⟩ keys ∧ keys.length = 3 := by
  refine ⟨_, .next rfl rfl rfl (.next rfl rfl rfl (.done _)), rfl⟩

end FlowMC
