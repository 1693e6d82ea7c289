import Verif.Spec.Collapse
import Verif.Props.Special
/-
C92: training on collapsed data.  Arithmetic with infinities and NaN.
-/
set_option linter.unusedSectionVars false
namespace FlowMC
open Spec
noncomputable section

namespace XR

theorem nf_cases {p : XR → Prop} (a : XR) (hf : ∀ r, p (.fin r)) (hb : NotFinite a → p a) : p a := by
  cases a with
  | fin r => exact hf r
  | pinf => exact hb (Or.inr (Or.inl rfl))
  | ninf => exact hb (Or.inr (Or.inr rfl))
  | nan => exact hb (Or.inl rfl)

theorem mul_def (a b : XR) : a * b = mul a b := rfl
theorem div_def (a b : XR) : a / b = mul a (inv b) := rfl

theorem nf_neg {a : XR} (h : NotFinite a) : NotFinite (-a) := by
  rw [neg_def]; rcases h with rfl | rfl | rfl <;> simp [neg, NotFinite]

theorem nf_add_right (a : XR) {b : XR} (h : NotFinite b) : NotFinite (a + b) := by
  rw [add_def]; rcases h with rfl | rfl | rfl <;> cases a <;> simp [add, NotFinite]

theorem nf_add_left {a : XR} (b : XR) (h : NotFinite a) : NotFinite (a + b) := by
  rw [add_def]; rcases h with rfl | rfl | rfl <;> cases b <;> simp [add, NotFinite]

theorem nf_mul_right (a : XR) {b : XR} (h : NotFinite b) : NotFinite (a * b) := by
  rw [mul_def]
  rcases h with rfl | rfl | rfl <;> cases a with
  | fin r => simp only [mul]; first | exact Or.inl rfl | (split_ifs <;> simp [NotFinite, neg])
  | _ => simp [mul, NotFinite, neg]

theorem nf_mul_left {a : XR} (b : XR) (h : NotFinite a) : NotFinite (a * b) := by
  rw [mul_def]
  rcases h with rfl | rfl | rfl <;> cases b with
  | fin r => simp only [mul]; first | exact Or.inl rfl | (split_ifs <;> simp [NotFinite, neg])
  | _ => simp [mul, NotFinite, neg]

theorem nan_mul (a : XR) : (nan : XR) * a = nan := by rw [mul_def]; cases a <;> rfl
theorem mul_nan (a : XR) : a * (nan : XR) = nan := by rw [mul_def]; cases a <;> rfl
theorem nan_add (a : XR) : (nan : XR) + a = nan := by rw [add_def]; cases a <;> rfl
theorem add_nan (a : XR) : a + (nan : XR) = nan := by rw [add_def]; cases a <;> rfl
theorem nan_sub (a : XR) : (nan : XR) - a = nan := by rw [sub_def]; cases a <;> rfl
theorem sub_nan (a : XR) : a - (nan : XR) = nan := by rw [sub_def]; cases a <;> rfl
theorem nan_div (a : XR) : (nan : XR) / a = nan := nan_mul _

/-- zero or NaN -/
def ZN (a : XR) : Prop := a = .fin 0 ∨ a = .nan

theorem zn_mul_right (a : XR) {b : XR} (h : ZN b) : ZN (a * b) := by
  rw [mul_def]; rcases h with rfl | rfl <;> cases a <;> simp [mul, ZN]
theorem zn_mul_left {a : XR} (b : XR) (h : ZN a) : ZN (a * b) := by
  rw [mul_def]; rcases h with rfl | rfl <;> cases b <;> simp [mul, ZN]
theorem zn_div {a : XR} (b : XR) (h : ZN a) : ZN (a / b) := zn_mul_left _ h
theorem zn_add {a b : XR} (ha : ZN a) (hb : ZN b) : ZN (a + b) := by
  rw [add_def]; rcases ha with rfl | rfl <;> rcases hb with rfl | rfl <;> simp [add, ZN]
theorem zn_zero : ZN (0 : XR) := Or.inl rfl

/-- dividing by the square root of zero or NaN -/
theorem nf_div_sqrt (a : XR) {v : XR} (h : ZN v) : NotFinite (a / Transc.sqrt v) := by
  rw [div_def]
  rcases h with rfl | rfl
  · have : inv (Transc.sqrt (fin 0)) = pinf := by simp [Transc.sqrt, inv]
    rw [this]; exact nf_mul_right a (Or.inr (Or.inl rfl))
  · exact nf_mul_right a (Or.inl rfl)

/-- `a - a` divided by the square root of zero or NaN -/
theorem nan_self_sub (z mean v : XR) (h : ZN v) : (z * Transc.sqrt v + mean - mean) / Transc.sqrt v = nan := by
  rcases h with rfl | rfl
  · have e : (Transc.sqrt (fin 0) : XR) = fin 0 := by simp [Transc.sqrt]
    rw [e]
    have e2 : ∀ w, w = nan ∨ w = fin 0 → w / (fin 0) = nan := by
      rintro w (rfl | rfl) <;> simp [div_def, inv, mul]
    apply e2
    have hz : ZN (z * fin 0) := zn_mul_right _ (Or.inl rfl)
    rcases hz with hz | hz <;> rw [hz]
    · rw [add_def, sub_def]; cases mean <;> simp [add, neg]
    · left; rw [nan_add, nan_sub]
  · show _ / nan = _
    exact mul_nan _

/-- NaN or `-inf` -/
def Low (a : XR) : Prop := a = .nan ∨ a = .ninf
/-- NaN or `+inf` -/
def High (a : XR) : Prop := a = .nan ∨ a = .pinf

theorem low_add_right (a : XR) {b : XR} (h : Low b) : Low (a + b) := by
  rw [add_def]; rcases h with rfl | rfl <;> cases a <;> simp [add, Low]
theorem low_add_left {a : XR} (b : XR) (h : Low a) : Low (a + b) := by
  rw [add_def]; rcases h with rfl | rfl <;> cases b <;> simp [add, Low]
theorem high_of_not_lt {a b : XR} (h : High a) : FCmp.blt a b = false := by
  rcases h with rfl | rfl <;> cases b <;> rfl
theorem high_neg {a : XR} (h : Low a) : High (-a) := by rw [neg_def]; rcases h with rfl | rfl <;> simp [neg, High]

/-- dividing NaN or `-inf` by a count -/
theorem low_div_nat {a : XR} (h : Low a) (n : ℕ) : Low (a / (n : XR)) := by
  rw [div_def]
  rcases h with rfl | rfl
  · exact Or.inl (nan_mul _)
  · show Low (mul ninf (inv (fin (n : ℝ))))
    simp only [inv]
    split_ifs with h
    · simp [mul, Low, neg]
    · have : (0 : ℝ) < (n : ℝ)⁻¹ := by have : (0 : ℝ) ≤ n := Nat.cast_nonneg n; positivity
      simp [mul, Low, this, this.ne', neg]

theorem low_sum (l : List XR) (h : ∀ a ∈ l, Low a) (hne : l ≠ []) : Low l.sum := by
  cases l with
  | nil => exact absurd rfl hne
  | cons a l => rw [List.sum_cons]; exact low_add_left _ (h a (by simp))

end XR

open XR

variable {d : ℕ} {κ : Type}

/-! ### One flow -/

theorem Gen.forward_notFinite (ls : List (Gen.Layer XR d)) (x : Pos XR d) (l : XR) (i : Fin d) (h : NotFinite (x i)) :
    NotFinite ((scan (fun (s : Pos XR d × XR) (l : Gen.Layer XR d) => let r := l.forward s.1; ((r.1, s.2 + r.2), ())) (x, l) ls).1.1 i) := by
  induction ls generalizing x l with
  | nil => exact h
  | cons a ls ih => simp only [scan]; exact ih _ _ (nf_add_right _ (nf_mul_right _ h))

theorem Gen.forward_nan (ls : List (Gen.Layer XR d)) (x : Pos XR d) (l : XR) (i : Fin d) (h : x i = .nan) :
    (scan (fun (s : Pos XR d × XR) (l : Gen.Layer XR d) => let r := l.forward s.1; ((r.1, s.2 + r.2), ())) (x, l) ls).1.1 i = .nan := by
  induction ls generalizing x l with
  | nil => exact h
  | cons a ls ih => simp only [scan]; refine ih _ _ ?_; simp only [Gen.Layer.forward]; rw [h, XR.mul_nan, XR.add_nan]

/-- **C92 (density).** If the standard deviation of the data that the flow divides by is zero or NaN in some coordinate, then `log_prob` is NaN or `-inf` at every point. -/
theorem C92_logProb (m : Gen.Flow XR d) (hb : PropagatesNonFinite m.baseLogProb) (hc : Collapsed m) (x : Pos XR d) : m.logProb x = .nan ∨ m.logProb x = .ninf := by
  obtain ⟨i, hi⟩ := hc
  exact low_add_right _ (hb.notFinite _ i (Gen.forward_notFinite m.layers _ 0 i (nf_div_sqrt _ hi)))

/-- **C92 (proposals).** The points that such a flow proposes have `log_prob` NaN. -/
theorem C92_proposals (m : Gen.Flow XR d) (hb : PropagatesNonFinite m.baseLogProb) (hc : Collapsed m) (k : Key) (n : ℕ) : ∀ y ∈ m.sample k n, m.logProb y = .nan := by
  obtain ⟨i, hi⟩ := hc
  intro y hy
  obtain ⟨z, -, rfl⟩ := List.mem_map.1 hy
  have : m.baseLogProb _ = .nan := hb.nan _ i (Gen.forward_nan m.layers (Gen.whiten m.dataMean m.dataVar (Gen.unwhiten m.dataMean m.dataVar (m.inverse z).1)) 0 i (nan_self_sub _ _ _ hi))
  show _ + m.baseLogProb _ = _
  rw [Gen.Flow.forward, this, XR.add_nan]

/-! ### Training -/

theorem sum_const_fin (l : List (Pos XR d)) (i : Fin d) (a : ℝ) (h : ∀ r ∈ l, r i = .fin a) : (l.map (· i)).sum = .fin (l.length * a) := by
  induction l with
  | nil => simp; rfl
  | cons r l ih =>
    rw [List.map_cons, List.sum_cons, ih (fun r hr => h r (by simp [hr])), h r (by simp)]
    show XR.fin (a + l.length * a) = _
    rw [List.length_cons]; congr 1; push_cast; ring

theorem zn_sum (l : List XR) (h : ∀ a ∈ l, ZN a) : ZN l.sum := by
  induction l with
  | nil => exact zn_zero
  | cons a l ih => rw [List.sum_cons]; exact zn_add (h a (by simp)) (ih fun b hb => h b (by simp [hb]))

/-- The variance of a constant coordinate. -/
theorem rowVar_constant (data : List (Pos XR d)) (i : Fin d) (a : ℝ) (h : ∀ r ∈ data, r i = .fin a) : ZN (Gen.rowVar data i) := by
  refine zn_div _ (zn_sum _ ?_)
  intro v hv
  obtain ⟨r, hr, rfl⟩ := List.mem_map.1 hv
  refine zn_mul_left _ ?_
  rw [h r hr]
  have hm : Gen.rowMean data i = .fin a := by
    have hn : data.length ≠ 0 := by intro e; rw [List.length_eq_zero_iff] at e; subst e; exact absurd hr (by simp)
    have hn' : (data.length : ℝ) ≠ 0 := Nat.cast_ne_zero.2 hn
    show (data.map (· i)).sum / (data.length : XR) = _
    rw [sum_const_fin data i a h, XR.div_def]
    show XR.mul (.fin (data.length * a)) (XR.inv (.fin (data.length : ℝ))) = _
    simp only [XR.inv, hn', if_false, XR.mul]
    congr 1; field_simp
  rw [hm]
  left
  show XR.add (.fin a) (XR.neg (.fin a)) = _
  simp [XR.neg, XR.add]

section train
variable {arch : (κ → XR) → Gen.Flow XR d} {grad : (Gen.Params d κ → XR) → List (Pos XR d) → Gen.Params d κ → XR} {idx : List (Gen.Params d κ)} {lr b1 b2 eps wd : XR}

theorem zn_clip {ι : Type} (idx : List ι) (g : ι → XR) (i : ι) (h : ZN (g i)) : ZN (Gen.clipByGlobalNorm idx g i) := by
  simp only [Gen.clipByGlobalNorm]
  split_ifs
  · exact h
  · exact zn_mul_left _ (zn_div _ h)

theorem zn_adamw {ι : Type} (idx : List ι) (g : ι → XR) (o : Gen.AdamState XR ι) (p : ι → XR) (i : ι) (hg : ZN (g i)) (ho : ZN (o.mu i)) :
    ZN ((Gen.adamwStep idx lr b1 b2 eps wd g (o, p)).1.mu i) ∧ (ZN (p i) → ZN ((Gen.adamwStep idx lr b1 b2 eps wd g (o, p)).2 i)) := by
  have hmu : ZN ((Gen.adamwStep idx lr b1 b2 eps wd g (o, p)).1.mu i) := zn_add (zn_mul_right _ ho) (zn_mul_right _ (zn_clip idx g i hg))
  exact ⟨hmu, fun hp => zn_add hp (zn_mul_right _ (zn_add (zn_div _ (zn_div _ hmu)) (zn_mul_right _ hp)))⟩

/-- The states that occur: the initial state is one, and every training step leads from one to one. -/
theorem C92_optimizerState (hs : StopsAtStats grad) : OptimizerState (Gen.AdamState.init : Gen.AdamState XR (Gen.Params d κ)) ∧
    ∀ p o b, OptimizerState o → OptimizerState ((Gen.flowOps arch grad idx lr b1 b2 eps wd).trainStep p o b).2.2 :=
  ⟨fun _ => Or.inl rfl, fun p o b ho i => (zn_adamw (lr := lr) (b1 := b1) (b2 := b2) (eps := eps) (wd := wd) idx (grad p b) o p _ (Or.inl (hs p b i)) (ho i)).1⟩

/-- A training step does not repair a collapsed flow, and its loss is NaN or `+inf`. -/
theorem C92_step (hs : StopsAtStats grad) (hb : ∀ w, PropagatesNonFinite (arch w).baseLogProb) (p : Gen.Params d κ → XR) (o : Gen.AdamState XR (Gen.Params d κ)) (x : List (Pos XR d))
    (hc : Collapsed (Gen.flowOf arch p)) (ho : OptimizerState o) :
    (((Gen.flowOps arch grad idx lr b1 b2 eps wd).trainStep p o x).1 = .nan ∨ ((Gen.flowOps arch grad idx lr b1 b2 eps wd).trainStep p o x).1 = .pinf) ∧
    Collapsed (Gen.flowOf arch ((Gen.flowOps arch grad idx lr b1 b2 eps wd).trainStep p o x).2.1) := by
  refine ⟨?_, ?_⟩
  · refine high_neg ?_
    by_cases hx : x = []
    · subst hx
      left
      show (0 : XR) / ((0 : ℕ) : XR) = _
      rw [XR.div_def]
      show XR.mul (.fin 0) (XR.inv (.fin ((0 : ℕ) : ℝ))) = _
      simp [XR.inv, XR.mul]
    · refine low_div_nat (low_sum _ ?_ (by simpa using hx)) _
      intro a ha
      obtain ⟨y, -, rfl⟩ := List.mem_map.1 ha
      exact C92_logProb (Gen.flowOf arch p) (hb _) hc y
  · obtain ⟨i, hi⟩ := hc
    exact ⟨i, (zn_adamw idx (grad p x) o p _ (Or.inl (hs p x i)) (ho i)).2 hi⟩

/-- What stays true of the loop variables of training. -/
def CollapsedState (arch : (κ → XR) → Gen.Flow XR d) (p : Gen.Params d κ → XR) (o : Gen.AdamState XR (Gen.Params d κ)) (n : ℕ)
    (s : TrainState XR (Gen.Params d κ → XR) (Gen.AdamState XR (Gen.Params d κ))) : Prop :=
  Collapsed (Gen.flowOf arch s.model) ∧ OptimizerState s.state ∧ s.bestModel = p ∧ s.bestState = o ∧ s.losses.length = n ∧ ∀ l ∈ s.losses, l = .nan ∨ l = .pinf

theorem collapsed_batches (hs : StopsAtStats grad) (hb : ∀ w, PropagatesNonFinite (arch w).baseLogProb) (data : List (Pos XR d)) (bs : List (List ℕ)) (hbs : bs ≠ [])
    (s : XR × (Gen.Params d κ → XR) × Gen.AdamState XR (Gen.Params d κ)) (hc : Collapsed (Gen.flowOf arch s.2.1)) (ho : OptimizerState s.2.2) :
    ((trainBatches (Gen.flowOps arch grad idx lr b1 b2 eps wd) data bs s).1 = .nan ∨ (trainBatches (Gen.flowOps arch grad idx lr b1 b2 eps wd) data bs s).1 = .pinf) ∧
    Collapsed (Gen.flowOf arch (trainBatches (Gen.flowOps arch grad idx lr b1 b2 eps wd) data bs s).2.1) ∧ OptimizerState (trainBatches (Gen.flowOps arch grad idx lr b1 b2 eps wd) data bs s).2.2 := by
  induction bs generalizing s with
  | nil => exact absurd rfl hbs
  | cons b bs ih =>
    rw [trainBatches]
    obtain ⟨h1, h2⟩ := C92_step (idx := idx) (lr := lr) (b1 := b1) (b2 := b2) (eps := eps) (wd := wd) hs hb s.2.1 s.2.2 (b.filterMap (data[·]?)) hc ho
    have h3 := (C92_optimizerState (arch := arch) (idx := idx) (lr := lr) (b1 := b1) (b2 := b2) (eps := eps) (wd := wd) hs).2 s.2.1 s.2.2 (b.filterMap (data[·]?)) ho
    by_cases hn : bs = []
    · subst hn; exact ⟨h1, h2, h3⟩
    · exact ih hn _ h2 h3

theorem collapsed_epoch (hs : StopsAtStats grad) (hb : ∀ w, PropagatesNonFinite (arch w).baseLogProb) (rng : Rng XR) (big : XR) (k : Key) (p : Gen.Params d κ → XR)
    (o : Gen.AdamState XR (Gen.Params d κ)) (data : List (Pos XR d)) (batch : ℕ) (hc : Collapsed (Gen.flowOf arch p)) (ho : OptimizerState o) :
    ((trainEpoch rng (Gen.flowOps arch grad idx lr b1 b2 eps wd) big k p o data batch).1 = .nan ∨ (trainEpoch rng (Gen.flowOps arch grad idx lr b1 b2 eps wd) big k p o data batch).1 = .pinf) ∧
    Collapsed (Gen.flowOf arch (trainEpoch rng (Gen.flowOps arch grad idx lr b1 b2 eps wd) big k p o data batch).2.1) ∧
    OptimizerState (trainEpoch rng (Gen.flowOps arch grad idx lr b1 b2 eps wd) big k p o data batch).2.2 := by
  rw [trainEpoch]
  split_ifs with h
  · refine collapsed_batches hs hb data _ ?_ _ hc ho
    rw [epochBatches]
    obtain ⟨n, hn⟩ := Nat.exists_eq_succ_of_ne_zero h.ne'
    rw [hn, chunks]; simp
  · obtain ⟨h1, h2⟩ := C92_step (idx := idx) (lr := lr) (b1 := b1) (b2 := b2) (eps := eps) (wd := wd) hs hb p o data hc ho
    exact ⟨h1, h2, (C92_optimizerState (arch := arch) (idx := idx) (lr := lr) (b1 := b1) (b2 := b2) (eps := eps) (wd := wd) hs).2 p o data ho⟩

/-- **C92 (training).** `train` on data in which some coordinate is constant (in particular on fewer than two rows): every loss is NaN or `+inf`, and the flow and the optimizer state that
are returned are the ones that were passed in, statistics included — whatever the networks, the gradients, the number of epochs and the batch size. -/
theorem C92_train (hs : StopsAtStats grad) (hb : ∀ w, PropagatesNonFinite (arch w).baseLogProb) (rng : Rng XR) (big : XR) (k : Key) (p : Gen.Params d κ → XR)
    (o : Gen.AdamState XR (Gen.Params d κ)) (ho : OptimizerState o) (data : List (Pos XR d)) (hd : ConstantCoordinate data) (epochs batch : ℕ)
    (r : TrainResult XR (Gen.Params d κ → XR) (Gen.AdamState XR (Gen.Params d κ))) (hr : train rng (Gen.flowOps arch grad idx lr b1 b2 eps wd) big k p o data epochs batch = .ok r) :
    r.model = p ∧ r.state = o ∧ r.losses.length = epochs ∧ ∀ l ∈ r.losses, l = .nan ∨ l = .pinf := by
  have main : ∀ n j s, CollapsedState arch p o j s → CollapsedState arch p o (j + n) (trainLoop rng (Gen.flowOps arch grad idx lr b1 b2 eps wd) big data batch n s) := by
    intro n
    induction n with
    | zero => intro j s h; exact h
    | succ n ih =>
      intro j s ⟨h1, h2, h3, h4, h5, h6⟩
      rw [trainLoop, show j + (n + 1) = (j + 1) + n by omega]
      refine ih _ _ ?_
      obtain ⟨e1, e2, e3⟩ := collapsed_epoch (idx := idx) (lr := lr) (b1 := b1) (b2 := b2) (eps := eps) (wd := wd) hs hb rng big (split s.rng).2 s.model s.state data batch h1 h2
      simp only [CollapsedState, trainLoopBody]
      rw [high_of_not_lt e1]
      refine ⟨e2, e3, h3, h4, by simp [h5], ?_⟩
      intro l hl
      rcases List.mem_append.1 hl with hl | hl
      · exact h6 l hl
      · rw [List.mem_singleton] at hl; rw [hl]; exact e1
  obtain ⟨i, a, hia⟩ := hd
  have h0 := main epochs 0 (trainInit (Gen.flowOps arch grad idx lr b1 b2 eps wd) big k p o data)
    ⟨⟨i, rowVar_constant data i a hia⟩, ho, rfl, rfl, rfl, by simp [trainInit]⟩
  rw [train] at hr
  split_ifs at hr
  simp only [Except.ok.injEq] at hr
  subst hr
  obtain ⟨-, -, h3, h4, h5, h6⟩ := h0
  rw [Nat.zero_add] at h5
  exact ⟨h3, h4, h5, h6⟩

end train

/-! ### The strategy call -/

theorem constantCoordinate_filterMap {rows : List (Pos XR d)} (h : ConstantCoordinate rows) (is : List ℕ) : ConstantCoordinate (is.filterMap (rows[·]?)) := by
  obtain ⟨i, a, hia⟩ := h
  refine ⟨i, a, fun r hr => ?_⟩
  obtain ⟨j, -, hj⟩ := List.mem_filterMap.1 hr
  exact hia r (List.mem_of_getElem? hj)

theorem dictSet_same {β : Type} (f : String → Option β) (k : String) (v : β) (h : f k = some v) : dictSet f k v = f := by
  funext k'; simp only [dictSet]; split_ifs with e
  · rw [e, h]
  · rfl

variable {D : Type} [BufNum XR]

theorem mem_chunks {α : Type} (b n : ℕ) (xs : List α) : ∀ l ∈ chunks b n xs, ∀ x ∈ l, x ∈ xs := by
  induction n generalizing xs with
  | zero => intro l hl; simp [chunks] at hl
  | succ n ih =>
    intro l hl x hx
    rw [chunks, List.mem_cons] at hl
    rcases hl with rfl | hl
    · exact List.mem_of_mem_take hx
    · exact List.mem_of_mem_drop (ih _ l hl x hx)

theorem trainingRows_constant {a' : NDArr XR} {nC nS w : ℕ} {i : Fin d} {a : ℝ}
    (hd : ∀ c < nC, ∀ j < nS, (∀ q : Fin d, BufNum.isFinite (a'.get [c, j, q]) = true) → a'.get [c, j, i] = .fin a)
    (rows : List (Pos XR d)) (h : trainingRows a' nC nS w = .ok rows) : ConstantCoordinate rows := by
  rw [trainingRows] at h
  split_ifs at h
  simp only [Except.ok.injEq] at h
  subst h
  refine ⟨i, a, fun r hr => ?_⟩
  obtain ⟨l, hl, hr⟩ := List.mem_flatMap.1 hr
  have hr : r ∈ l := by
    rw [takeLast] at hr
    split_ifs at hr
    · exact hr
    · exact List.mem_of_mem_drop hr
  have hr := mem_chunks _ _ _ l hl r hr
  rw [finiteRows] at hr
  obtain ⟨c, hc, hr⟩ := List.mem_flatMap.1 hr
  obtain ⟨hr, hf⟩ := List.mem_filter.1 hr
  obtain ⟨j, hj, rfl⟩ := List.mem_map.1 hr
  exact hd c (List.mem_range.1 hc) j (List.mem_range.1 hj) (fun q => List.all_eq_true.1 hf q (List.mem_finRange q))

/-- **C92 (call).** A call of the training strategy that finds a coordinate with the same value in all finite rows of the data buffer (for instance, no chain has moved yet, or only one row
is finite) and returns: nothing but the loss buffer has changed; the flow and the optimizer are the old ones. -/
theorem C92_call {arch : (κ → XR) → Gen.Flow XR d} {grad : (Gen.Params d κ → XR) → List (Pos XR d) → Gen.Params d κ → XR} {idx : List (Gen.Params d κ)} {lr b1 b2 eps wd : XR}
    (hs : StopsAtStats grad) (hb : ∀ w, PropagatesNonFinite (arch w).baseLogProb) (env : Env XR D d (Gen.Params d κ → XR) (Gen.AdamState XR (Gen.Params d κ)))
    (hops : env.ops = Gen.flowOps arch grad idx lr b1 b2 eps wd) (s : TrainModel) (hne : s.modelName ≠ s.lossBufferName) (hne' : s.optimizerName ≠ s.lossBufferName)
    (k k' : Key) (xs xs' : List (Pos XR d)) (h h' : Heap XR D d (Gen.Params d κ → XR) (Gen.AdamState XR (Gen.Params d κ)))
    (ho : ∀ o, h.res s.optimizerName = some (.optimizer o) → OptimizerState o) (b : Buffer XR) (hbuf : h.res s.dataName = some (.buffer b)) (nC nS : ℕ) (hsh : b.data.shape = [nC, nS, d])
    (i : Fin d) (a : ℝ) (hd : ∀ c < nC, ∀ j < nS, (∀ q : Fin d, BufNum.isFinite (b.data.get [c, j, q]) = true) → b.data.get [c, j, i] = .fin a)
    (hrun : s.run env k xs h = (.ok (k', xs'), h')) :
    xs' = xs ∧ h'.pos = h.pos ∧ ∀ name, name ≠ s.lossBufferName → h'.res name = h.res name := by
  rw [TrainModel.run] at hrun
  cases hp : s.plan env k h with
  | error e => rw [hp] at hrun; simp at hrun
  | ok r =>
    rw [hp] at hrun
    have hmo : ∃ m o, h.res s.modelName = some (.model m) ∧ h.res s.optimizerName = some (.optimizer o) ∧ r.model = m ∧ r.state = o := by
      simp only [TrainModel.plan, bind, Except.bind, Heap.getModel, Heap.getBuffer, Heap.getOptimizer, Heap.get] at hp
      cases h1 : h.res s.modelName with
      | none => rw [h1] at hp; simp at hp
      | some rm =>
        rw [h1] at hp
        cases rm with
        | model m =>
          simp only [hbuf] at hp
          cases h2 : h.res s.optimizerName with
          | none => rw [h2] at hp; simp at hp
          | some ro =>
            rw [h2] at hp
            cases ro with
            | optimizer o =>
              simp only [hsh, if_true] at hp
              cases h3 : trainingRows (d := d) b.data nC nS s.historyWindow with
              | error e => rw [h3] at hp; simp at hp
              | ok rows =>
                rw [h3] at hp
                simp only at hp
                split_ifs at hp
                rw [hops] at hp
                obtain ⟨e1, e2, -⟩ := C92_train hs hb env.rng env.big _ m o (ho o h2) _ (constantCoordinate_filterMap (trainingRows_constant hd rows h3) _) _ _ r hp
                exact ⟨m, o, rfl, rfl, e1, e2⟩
            | _ => simp at hp
        | _ => simp at hp
    obtain ⟨m, o, h1, h2, e1, e2⟩ := hmo
    simp only at hrun
    have hrec : ∀ h2 u, recordLosses s.lossBufferName r.losses h = (.ok u, h2) → h2.pos = h.pos ∧ ∀ name, name ≠ s.lossBufferName → h2.res name = h.res name := by
      intro h2 u he
      rw [recordLosses] at he
      split_ifs at he
      · simp only [Prod.mk.injEq] at he; obtain ⟨-, rfl⟩ := he; exact ⟨rfl, fun _ _ => rfl⟩
      · split at he
        · simp at he
        · split at he
          · simp at he
          · simp only [Prod.mk.injEq] at he; obtain ⟨-, rfl⟩ := he
            exact ⟨rfl, fun name hn => by simp [Heap.setRes, dictSet, hn]⟩
    rcases hr : recordLosses s.lossBufferName r.losses h with ⟨e, h3⟩
    rw [hr] at hrun
    cases e with
    | error e => simp at hrun
    | ok u =>
      obtain ⟨p1, p2⟩ := hrec h3 u hr
      simp only [Prod.mk.injEq, Except.ok.injEq] at hrun
      obtain ⟨⟨-, hx⟩, rfl⟩ := hrun
      refine ⟨hx.symm, p1, fun name hn => ?_⟩
      simp only [Heap.setRes]
      rw [e1, e2]
      have q1 : dictSet h3.res s.modelName (.model m) = h3.res := dictSet_same _ _ _ (by rw [p2 _ hne, h1])
      rw [q1, dictSet_same _ _ _ (by rw [p2 _ hne', h2])]
      exact p2 _ hn

/-! ### Proposals of a collapsed flow -/

theorem nfScan_nan (rng : Rng XR) (k : Key) (c : NFCarry XR d) (props : List (Pos XR d × XR × XR)) (h : ∀ p ∈ props, p.2.2 = .nan) :
    ∀ o ∈ nfScan rng k c props, o.pos = c.pos ∧ o.logp = c.logp ∧ o.acc = false := by
  have main : ∀ props : List (Pos XR d × XR × XR), (∀ p ∈ props, p.2.2 = .nan) → ∀ k, ∀ o ∈ (scan (fun (s : Key × NFCarry XR d) (p : Pos XR d × XR × XR) =>
      let ks := split s.1
      let r := nfBody (rng.uniform ks.2) s.2 p
      ((ks.1, r.1), r.2)) (k, c) props).2, o.pos = c.pos ∧ o.logp = c.logp ∧ o.acc = false := by
    intro props
    induction props with
    | nil => intro _ k o ho; simp [scan] at ho
    | cons p props ih =>
      intro hp k o ho
      have hb : nfBody (rng.uniform (split k).2) c p = (c, ⟨c.pos, c.logp, false⟩) := by
        have hn := hp p (by simp)
        have e : acceptTest (rng.uniform (split k).2) ((p.2.1 - c.logp) - (p.2.2 - c.lognf)) = false := by
          rw [hn, XR.nan_sub, XR.sub_nan, acceptTest]
          cases (Transc.log (rng.uniform (split k).2) : XR) <;> rfl
        simp only [nfBody, e]; rfl
      simp only [scan, hb, List.mem_cons] at ho
      rcases ho with rfl | ho
      · exact ⟨rfl, rfl, rfl⟩
      · exact ih (fun q hq => hp q (by simp [hq])) _ o ho
  exact main props h k

/-- **C92 (moves).** A global sweep with a collapsed flow never moves the chain: every recorded row is the starting point, with its log-density, and marked as rejected. -/
theorem C92_sweep {arch : (κ → XR) → Gen.Flow XR d} {grad : (Gen.Params d κ → XR) → List (Pos XR d) → Gen.Params d κ → XR} {idx : List (Gen.Params d κ)} {lr b1 b2 eps wd : XR}
    (env : Env XR D d (Gen.Params d κ → XR) (Gen.AdamState XR (Gen.Params d κ))) (hops : env.ops = Gen.flowOps arch grad idx lr b1 b2 eps wd) (p : Gen.Params d κ → XR)
    (hb : PropagatesNonFinite (Gen.flowOf arch p).baseLogProb) (hc : Collapsed (Gen.flowOf arch p)) (t : Target XR D d) (data : Data D) (batch n : ℕ) (k : Key) (x : Pos XR d)
    (rows : List (StepOut XR d)) (hr : groupSample env p batch t data n k x = .ok rows) :
    ∀ o ∈ rows, o.pos = x ∧ o.logp = t.val x data ∧ o.acc = false := by
  simp only [groupSample, nfKernel] at hr
  split_ifs at hr
  simp only [Except.ok.injEq] at hr
  subst hr
  refine nfScan_nan _ _ _ _ ?_
  intro q hq
  obtain ⟨⟨pp, l⟩, hl, rfl⟩ := List.mem_map.1 hq
  have hp := (List.of_mem_zip hl).1
  rw [hops] at hp
  simp only [sampleFlow] at hp
  have hall : ∀ k n, ∀ y ∈ (Gen.flowOps arch grad idx lr b1 b2 eps wd).sample p k n, (Gen.flowOps arch grad idx lr b1 b2 eps wd).logProb p y = .nan := fun k n y hy => C92_proposals _ hb hc k n y hy
  split_ifs at hp
  · have hp := List.mem_of_mem_take hp
    obtain ⟨l1, h1, h2⟩ := List.mem_flatten.1 hp
    obtain ⟨bt, h3, rfl⟩ := List.mem_map.1 h1
    obtain ⟨y, hy, rfl⟩ := List.mem_map.1 h2
    have hfb : ∀ nb ns k, bt ∈ flowBatches (Gen.flowOps arch grad idx lr b1 b2 eps wd) p ns nb k → ∃ k', bt = (Gen.flowOps arch grad idx lr b1 b2 eps wd).sample p k' ns := by
      intro nb ns
      induction nb with
      | zero => intro k h; simp [flowBatches] at h
      | succ nb ih =>
        intro k h
        simp only [flowBatches, List.mem_cons] at h
        rcases h with h | h
        · exact ⟨_, h⟩
        · exact ih _ h
    obtain ⟨k', rfl⟩ := hfb _ _ _ h3
    exact hall _ _ y hy
  · obtain ⟨y, hy, rfl⟩ := List.mem_map.1 hp
    exact hall _ _ y hy

end
end FlowMC
