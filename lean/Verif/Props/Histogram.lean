import Verif.Model.Histogram
import Verif.Spec.Histogram
import Verif.Props.Bundles
import Verif.Props.TemperBundle
import Mathlib.Tactic.NormNum
import Mathlib.Data.Set.Card
import Mathlib.Algebra.Order.Floor.Ring
import Mathlib.Tactic.FieldSimp
import Mathlib.Tactic.Linarith
/-
C80: the histogram of a buffer.
-/
set_option linter.unusedSectionVars false
namespace FlowMC
open Spec

noncomputable section

theorem mem_allIndices : ∀ (s idx : List ℕ), idx ∈ allIndices s ↔ InBounds idx s
  | [], [] => by simp [allIndices, InBounds]
  | [], _ :: _ => by simp [allIndices, InBounds]
  | n :: ns, [] => by simp [allIndices, InBounds]
  | n :: ns, i :: is => by simp [allIndices, InBounds, mem_allIndices ns is]

theorem nodup_allIndices : ∀ s : List ℕ, (allIndices s).Nodup
  | [] => by simp [allIndices]
  | n :: ns => by
    rw [allIndices, List.nodup_flatMap]
    refine ⟨fun i _ => (nodup_allIndices ns).map (fun a b h => by simpa using h), ?_⟩
    refine List.nodup_range.imp fun {i j} hij => ?_
    simp only [Function.onFun, List.disjoint_left]
    intro a ha hb
    obtain ⟨x, -, rfl⟩ := List.mem_map.1 ha
    obtain ⟨y, -, h⟩ := List.mem_map.1 hb
    exact hij (List.cons.inj h).1.symm

theorem length_allIndices : ∀ s : List ℕ, (allIndices s).length = s.prod
  | [] => by simp [allIndices]
  | n :: ns => by simp [allIndices, List.length_flatMap, length_allIndices ns]

/-! ### The range -/

theorem foldl_min_spec : ∀ (xs : List ℝ) (x : ℝ), xs.foldl min x ∈ x :: xs ∧ ∀ v ∈ x :: xs, xs.foldl min x ≤ v
  | [], x => by simp
  | y :: ys, x => by
    obtain ⟨h1, h2⟩ := foldl_min_spec ys (min x y)
    simp only [List.foldl_cons]
    constructor
    · rcases List.mem_cons.1 h1 with h | h
      · rw [h]; rcases min_choice x y with h | h <;> simp [h]
      · simp [h]
    · intro v hv
      have h0 := h2 (min x y) (by simp)
      rcases List.mem_cons.1 hv with rfl | hv
      · exact h0.trans (min_le_left _ _)
      · rcases List.mem_cons.1 hv with rfl | hv
        · exact h0.trans (min_le_right _ _)
        · exact h2 v (by simp [hv])

theorem foldl_max_spec : ∀ (xs : List ℝ) (x : ℝ), xs.foldl max x ∈ x :: xs ∧ ∀ v ∈ x :: xs, v ≤ xs.foldl max x
  | [], x => by simp
  | y :: ys, x => by
    obtain ⟨h1, h2⟩ := foldl_max_spec ys (max x y)
    simp only [List.foldl_cons]
    constructor
    · rcases List.mem_cons.1 h1 with h | h
      · rw [h]; rcases max_choice x y with h | h <;> simp [h]
      · simp [h]
    · intro v hv
      have h0 := h2 (max x y) (by simp)
      rcases List.mem_cons.1 hv with rfl | hv
      · exact (le_max_left _ _).trans h0
      · rcases List.mem_cons.1 hv with rfl | hv
        · exact (le_max_right _ _).trans h0
        · exact h2 v (by simp [hv])

theorem histRange_lt : ∀ vs : List ℝ, (histRange vs).1 < (histRange vs).2
  | [] => by simp [histRange]
  | x :: xs => by
    unfold histRange
    simp only
    split
    · rename_i h; simp only [h]; linarith
    · rename_i h
      refine lt_of_le_of_ne ?_ h
      exact ((foldl_min_spec xs x).2 x (by simp)).trans ((foldl_max_spec xs x).2 x (by simp))

theorem histRange_mem {vs : List ℝ} {v : ℝ} (h : v ∈ vs) : (histRange vs).1 ≤ v ∧ v ≤ (histRange vs).2 := by
  cases vs with
  | nil => cases h
  | cons x xs =>
    have h1 := (foldl_min_spec xs x).2 v h
    have h2 := (foldl_max_spec xs x).2 v h
    unfold histRange
    simp only
    split
    · constructor <;> simp only <;> linarith
    · exact ⟨h1, h2⟩

/-! ### The bin of a value -/

theorem histEdge_zero (r : ℝ × ℝ) (n : ℕ) : histEdge r n 0 = r.1 := by simp [histEdge]
theorem histEdge_last (r : ℝ × ℝ) {n : ℕ} (hn : 0 < n) : histEdge r n n = r.2 := by
  have : (n : ℝ) ≠ 0 := by exact_mod_cast hn.ne'
  unfold histEdge; field_simp; ring

theorem histEdge_lt {r : ℝ × ℝ} (hr : r.1 < r.2) {n : ℕ} (hn : 0 < n) {i j : ℕ} (h : i < j) : histEdge r n i < histEdge r n j := by
  have hn' : (0 : ℝ) < n := by exact_mod_cast hn
  have h' : (i : ℝ) < j := by exact_mod_cast h
  unfold histEdge
  have : 0 < (r.2 - r.1) / n := div_pos (by linarith) hn'
  nlinarith

theorem histIndex_spec {r : ℝ × ℝ} (hr : r.1 < r.2) {n : ℕ} (hn : 0 < n) {v : ℝ} (h1 : r.1 ≤ v) (h2 : v ≤ r.2) :
    histIndex r n v < n ∧ histEdge r n (histIndex r n v) ≤ v ∧
      (v < histEdge r n (histIndex r n v + 1) ∨ (histIndex r n v + 1 = n ∧ v = histEdge r n (histIndex r n v + 1))) := by
  have hn' : (0 : ℝ) < n := by exact_mod_cast hn
  have hd : 0 < r.2 - r.1 := by linarith
  set f := (v - r.1) / (r.2 - r.1) * n with hf
  have f0 : 0 ≤ f := mul_nonneg (div_nonneg (by linarith) hd.le) hn'.le
  have fn : f ≤ n := by
    rw [hf]
    have : (v - r.1) / (r.2 - r.1) ≤ 1 := (div_le_one hd).2 (by linarith)
    nlinarith
  have hv : ∀ t : ℝ, r.1 + t * ((r.2 - r.1) / n) ≤ v ↔ t ≤ f := by
    intro t
    have e : v = r.1 + f * ((r.2 - r.1) / n) := by rw [hf]; field_simp; ring
    have hp : 0 < (r.2 - r.1) / n := div_pos hd hn'
    constructor
    · intro h; by_contra hc; push Not at hc; nlinarith
    · intro h; rw [e]; nlinarith
  have edge : ∀ i : ℕ, histEdge r n i ≤ v ↔ (i : ℝ) ≤ f := fun i => hv i
  have k1 : (⌊f⌋₊ : ℝ) ≤ f := Nat.floor_le f0
  have k2 : f < ⌊f⌋₊ + 1 := Nat.lt_floor_add_one f
  by_cases hk : ⌊f⌋₊ = n
  · have fe : f = n := le_antisymm fn (hk ▸ k1)
    have ve : v = histEdge r n n := by
      rw [histEdge_last r hn]
      refine le_antisymm h2 ?_
      rw [← histEdge_last r hn]; exact (edge n).2 fe.ge
    have hi : histIndex r n v = n - 1 := by
      unfold histIndex
      simp only [← hf, hk, if_true]
      have : ¬ v < histEdge r n (n - 1) := by
        rw [not_lt]; refine (edge _).2 ?_; rw [fe]; exact_mod_cast Nat.sub_le n 1
      simp [this]
    rw [hi]
    refine ⟨by omega, (edge _).2 (by rw [fe]; exact_mod_cast Nat.sub_le n 1), Or.inr ⟨by omega, ?_⟩⟩
    rw [show n - 1 + 1 = n by omega]; exact ve
  · have hlt : ⌊f⌋₊ < n := lt_of_le_of_ne (by exact_mod_cast k1.trans fn) hk
    have hi : histIndex r n v = ⌊f⌋₊ := by
      unfold histIndex
      simp only [← hf, hk, if_false]
      have a : ¬ v < histEdge r n ⌊f⌋₊ := not_lt.2 ((edge _).2 k1)
      have b : ¬ histEdge r n (⌊f⌋₊ + 1) ≤ v := by
        rw [edge]; push_cast; linarith
      simp [a, b]
    rw [hi]
    refine ⟨hlt, (edge _).2 k1, Or.inl ?_⟩
    rw [← not_le, edge]; push_cast; linarith

/-- The bin containing a value is unique. -/
theorem inBin_unique {edges : List ℝ} (hs : edges.Pairwise (· < ·)) {i j : ℕ} {v : ℝ} (hi : InBin edges i v) (hj : InBin edges j v) : i = j := by
  have key : ∀ {i j : ℕ}, InBin edges i v → InBin edges j v → ¬ i < j := by
    rintro i j ⟨a, a1, a2⟩ ⟨b, b1, b2⟩ h
    have : edges[i + 1] ≤ edges[j] := by
      rcases (show i + 1 ≤ j by omega).eq_or_lt with e | e
      · simp [e]
      · exact (List.pairwise_iff_getElem.1 hs _ _ _ _ e).le
    rcases a2 with a2 | ⟨a2, -⟩
    · linarith
    · omega
  have := key hi hj
  have := key hj hi
  omega

theorem mapM_finite {xs : List XR} {vs : List ℝ} (h : xs.mapM XR.finite? = some vs) : xs = vs.map XR.fin := by
  induction xs generalizing vs with
  | nil => simp at h; subst h; rfl
  | cons x xs ih =>
    rw [List.mapM_cons] at h
    cases x with
    | fin v =>
      simp only [XR.finite?, bind, Option.bind] at h
      cases e : xs.mapM XR.finite? with
      | none => simp [e] at h
      | some ws =>
        simp only [e, pure, Option.some.injEq] at h
        subst h
        simp [ih e]
    | _ => simp [XR.finite?, bind, Option.bind] at h

theorem mapM_finite_some {xs : List XR} (h : ∀ x ∈ xs, ∃ v, x = .fin v) : ∃ vs, xs.mapM XR.finite? = some vs := by
  induction xs with
  | nil => exact ⟨[], rfl⟩
  | cons x xs ih =>
    obtain ⟨v, rfl⟩ := h x (by simp)
    obtain ⟨vs, hvs⟩ := ih fun y hy => h y (by simp [hy])
    exact ⟨v :: vs, by rw [List.mapM_cons, hvs]; rfl⟩

/-- What a returned histogram consists of. -/
theorem getDistribution_ok {b : Buffer XR} {nBins : ℤ} {counts : List ℕ} {edges : List ℝ} (h : b.getDistribution nBins = .ok (counts, edges)) :
    1 ≤ nBins ∧ ∃ vs : List ℝ, b.data.flatten = vs.map XR.fin ∧
      counts = (List.range nBins.toNat).map (fun j => (vs.map (histIndex (histRange vs) nBins.toNat)).count j) ∧
      edges = (List.range (nBins.toNat + 1)).map (histEdge (histRange vs) nBins.toNat) := by
  unfold Buffer.getDistribution histogram at h
  split at h
  · cases h
  · rename_i hn
    split at h
    · cases h
    · rename_i vs e
      simp only [Except.ok.injEq, Prod.mk.injEq] at h
      exact ⟨by omega, vs, mapM_finite e, h.1.symm, h.2.symm⟩

variable {b : Buffer XR} {nBins : ℤ} {counts : List ℕ} {edges : List ℝ}

/-- **C80 (when it raises).** `get_distribution(n_bins)` returns exactly when there is at least one bin and every cell of the buffer holds a real number; otherwise it raises
`ValueError`. -/
theorem C80_raises (b : Buffer XR) (nBins : ℤ) :
    ((∃ r, b.getDistribution nBins = .ok r) ↔ 1 ≤ nBins ∧ AllFinite b.data) ∧
    (¬ (1 ≤ nBins ∧ AllFinite b.data) → b.getDistribution nBins = .error .valueError) := by
  have key : ∀ h : 1 ≤ nBins ∧ AllFinite b.data, ∃ r, b.getDistribution nBins = .ok r := by
    rintro ⟨h1, h2⟩
    obtain ⟨vs, hvs⟩ : ∃ vs, b.data.flatten.mapM XR.finite? = some vs := by
      refine mapM_finite_some fun x hx => ?_
      obtain ⟨idx, hidx, rfl⟩ := List.mem_map.1 hx
      exact h2 idx ((mem_allIndices _ _).1 hidx)
    unfold Buffer.getDistribution histogram
    rw [if_neg (by omega), hvs]
    exact ⟨_, rfl⟩
  have back : ∀ r, b.getDistribution nBins = .ok r → 1 ≤ nBins ∧ AllFinite b.data := by
    rintro ⟨c, e⟩ h
    obtain ⟨h1, vs, hvs, -⟩ := getDistribution_ok h
    refine ⟨h1, fun idx hidx => ?_⟩
    have : b.data.get idx ∈ b.data.flatten := List.mem_map.2 ⟨idx, (mem_allIndices _ _).2 hidx, rfl⟩
    rw [hvs] at this
    obtain ⟨v, -, hv⟩ := List.mem_map.1 this
    exact ⟨v, hv.symm⟩
  refine ⟨⟨fun ⟨r, hr⟩ => back r hr, key⟩, fun hn => ?_⟩
  cases e : b.getDistribution nBins with
  | ok r => exact absurd (back r e) hn
  | error err =>
    unfold Buffer.getDistribution histogram at e
    split at e
    · exact e ▸ rfl
    · split at e
      · exact e ▸ rfl
      · cases e

/-- **C80 (edges).** There are `n_bins + 1` strictly increasing, equally spaced edges; they run from the least to the greatest value in the buffer, from half below to half above
if there is only one value, and from 0 to 1 for a buffer without cells. -/
theorem C80_edges (h : b.getDistribution nBins = .ok (counts, edges)) :
    (edges.length : ℤ) = nBins + 1 ∧ edges.Pairwise (· < ·) ∧ (∃ w, ∀ i (hi : i + 1 < edges.length), edges[i + 1] - edges[i] = w) ∧
    ∃ lo hi, edges.head? = some lo ∧ edges.getLast? = some hi ∧
      (∀ idx v, InBounds idx b.data.shape → b.data.get idx = .fin v → lo ≤ v ∧ v ≤ hi) ∧
      ((∃ i j a c, InBounds i b.data.shape ∧ InBounds j b.data.shape ∧ b.data.get i = .fin a ∧ b.data.get j = .fin c ∧ a ≠ c) →
        (∃ i, InBounds i b.data.shape ∧ b.data.get i = .fin lo) ∧ ∃ i, InBounds i b.data.shape ∧ b.data.get i = .fin hi) ∧
      (∀ v, (∃ i, InBounds i b.data.shape) → (∀ i, InBounds i b.data.shape → b.data.get i = .fin v) → lo = v - 1 / 2 ∧ hi = v + 1 / 2) ∧
      ((∀ i, ¬ InBounds i b.data.shape) → lo = 0 ∧ hi = 1) := by
  obtain ⟨h1, vs, hvs, -, rfl⟩ := getDistribution_ok h
  have hn : 0 < nBins.toNat := by omega
  have hr := histRange_lt vs
  have mem : ∀ v, v ∈ vs ↔ ∃ i, InBounds i b.data.shape ∧ b.data.get i = .fin v := by
    intro v
    have : XR.fin v ∈ b.data.flatten ↔ v ∈ vs := by rw [hvs]; simp
    rw [← this]
    simp only [NDArr.flatten, List.mem_map, mem_allIndices]
  refine ⟨by simp; omega, ?_, ⟨((histRange vs).2 - (histRange vs).1) / nBins.toNat, ?_⟩, (histRange vs).1, (histRange vs).2, ?_, ?_, ?_, ?_, ?_, ?_⟩
  · rw [List.pairwise_map]
    exact (List.pairwise_lt_range).imp fun hij => histEdge_lt hr hn hij
  · intro i hi
    simp only [List.getElem_map, List.getElem_range, histEdge]
    push_cast; ring
  · rw [List.range_succ_eq_map]; simp [histEdge_zero]
  · rw [List.range_succ]; simp [histEdge_last _ hn]
  · exact fun idx v hidx hv => histRange_mem ((mem v).2 ⟨idx, hidx, hv⟩)
  · rintro ⟨i, j, a, c, hi, hj, ha, hc, hac⟩
    have ma := (mem a).2 ⟨i, hi, ha⟩
    have mc := (mem c).2 ⟨j, hj, hc⟩
    rw [← mem, ← mem]
    cases vs with
    | nil => cases ma
    | cons x xs =>
      have hne : xs.foldl min x ≠ xs.foldl max x := by
        intro e
        have a1 := (foldl_min_spec xs x).2 a ma
        have a2 := (foldl_max_spec xs x).2 a ma
        have c1 := (foldl_min_spec xs x).2 c mc
        have c2 := (foldl_max_spec xs x).2 c mc
        exact hac (by linarith)
      simp only [histRange, hne, if_false]
      exact ⟨(foldl_min_spec xs x).1, (foldl_max_spec xs x).1⟩
  · rintro v ⟨i, hi⟩ hall
    have all : ∀ w ∈ vs, w = v := by
      intro w hw
      obtain ⟨j, hj, hw⟩ := (mem w).1 hw
      rw [hall j hj] at hw
      simpa using hw.symm
    have mv := (mem v).2 ⟨i, hi, hall i hi⟩
    cases vs with
    | nil => cases mv
    | cons x xs =>
      have e1 := all _ (foldl_min_spec xs x).1
      have e2 := all _ (foldl_max_spec xs x).1
      simp only [histRange, e1, e2, if_true, and_self]
  · intro hno
    have : vs = [] := List.eq_nil_iff_forall_not_mem.2 fun v hv => by
      obtain ⟨i, hi, -⟩ := (mem v).1 hv
      exact hno i hi
    subst this
    simp [histRange]

/-- The bin the model assigns is the bin that contains the value. -/
theorem histIndex_inBin {vs : List ℝ} {n : ℕ} (hn : 0 < n) {v : ℝ} (hv : v ∈ vs) (j : ℕ) :
    histIndex (histRange vs) n v = j ↔ InBin ((List.range (n + 1)).map (histEdge (histRange vs) n)) j v := by
  have hr := histRange_lt vs
  obtain ⟨m1, m2⟩ := histRange_mem hv
  obtain ⟨s1, s2, s3⟩ := histIndex_spec hr hn m1 m2
  have self : InBin ((List.range (n + 1)).map (histEdge (histRange vs) n)) (histIndex (histRange vs) n v) v := by
    refine ⟨by simp; omega, by simpa using s2, ?_⟩
    rcases s3 with s | ⟨s, t⟩
    · exact Or.inl (by simpa using s)
    · exact Or.inr ⟨by simp; omega, by simpa using t⟩
  constructor
  · rintro rfl; exact self
  · intro h
    refine inBin_unique ?_ self h
    rw [List.pairwise_map]
    exact (List.pairwise_lt_range).imp fun hij => histEdge_lt hr hn hij

/-- **C80 (counts).** The `j`-th count is the number of cells of the buffer whose value lies in the `j`-th bin; every cell lies in exactly one bin, and the counts add up to the
number of cells. -/
theorem C80_counts (h : b.getDistribution nBins = .ok (counts, edges)) :
    (counts.length : ℤ) = nBins ∧ (∀ j (hj : j < counts.length), counts[j] = (cellsInBin b.data edges j).ncard) ∧
    (∀ idx, InBounds idx b.data.shape → ∃! j, j < counts.length ∧ idx ∈ cellsInBin b.data edges j) ∧ counts.sum = b.data.shape.prod := by
  obtain ⟨h1, vs, hvs, rfl, rfl⟩ := getDistribution_ok h
  have hn : 0 < nBins.toNat := by omega
  have hr := histRange_lt vs
  have mem : ∀ idx, InBounds idx b.data.shape → ∃ v ∈ vs, b.data.get idx = .fin v := by
    intro idx hidx
    have : b.data.get idx ∈ b.data.flatten := List.mem_map.2 ⟨idx, (mem_allIndices _ _).2 hidx, rfl⟩
    rw [hvs] at this
    obtain ⟨v, hv, e⟩ := List.mem_map.1 this
    exact ⟨v, hv, e.symm⟩
  refine ⟨by simp; omega, ?_, ?_, ?_⟩
  · intro j hj
    classical
    simp only [List.getElem_map, List.getElem_range]
    have hset : cellsInBin b.data ((List.range (nBins.toNat + 1)).map (histEdge (histRange vs) nBins.toNat)) j =
        (((allIndices b.data.shape).filter fun idx => decide (∃ v, b.data.get idx = .fin v ∧ histIndex (histRange vs) nBins.toNat v = j)).toFinset : Set (List ℕ)) := by
      ext idx
      simp only [cellsInBin, Set.mem_setOf_eq, List.coe_toFinset, List.mem_filter, mem_allIndices, decide_eq_true_eq]
      refine and_congr_right fun hidx => ?_
      obtain ⟨v, hv, e⟩ := mem idx hidx
      simp only [e, XR.fin.injEq, exists_eq_left']
      exact (histIndex_inBin hn hv j).symm
    rw [hset, Set.ncard_coe_finset, List.toFinset_card_of_nodup ((nodup_allIndices _).filter _), ← List.countP_eq_length_filter, List.count, List.countP_map]
    have e2 : (vs.map XR.fin).countP (fun x => decide (∃ v, x = .fin v ∧ histIndex (histRange vs) nBins.toNat v = j)) =
        vs.countP ((fun x => x == j) ∘ histIndex (histRange vs) nBins.toNat) := by
      rw [List.countP_map]
      refine List.countP_congr fun v _ => ?_
      simp
    rw [← e2, ← hvs, NDArr.flatten, List.countP_map]
    rfl
  · intro idx hidx
    obtain ⟨v, hv, e⟩ := mem idx hidx
    refine ⟨histIndex (histRange vs) nBins.toNat v, ⟨?_, hidx, v, e, (histIndex_inBin hn hv _).1 rfl⟩, ?_⟩
    · simpa using (histIndex_spec hr hn (histRange_mem hv).1 (histRange_mem hv).2).1
    · rintro j ⟨-, -, w, hw, hj⟩
      rw [e] at hw
      obtain rfl : v = w := by simpa using hw
      exact ((histIndex_inBin hn hv j).2 hj).symm
  · have hlen : vs.length = b.data.shape.prod := by
      have := congrArg List.length hvs
      rw [NDArr.flatten, List.length_map, length_allIndices, List.length_map] at this
      exact this.symm
    rw [← hlen]
    have hlt : ∀ k ∈ vs.map (histIndex (histRange vs) nBins.toNat), k < nBins.toNat := by
      intro k hk
      obtain ⟨v, hv, rfl⟩ := List.mem_map.1 hk
      exact (histIndex_spec hr hn (histRange_mem hv).1 (histRange_mem hv).2).1
    rw [← List.length_map (as := vs) (f := histIndex (histRange vs) nBins.toNat)]
    generalize vs.map (histIndex (histRange vs) nBins.toNat) = is at hlt
    generalize nBins.toNat = n at hlt
    clear * - hlt
    induction is with
    | nil => simp
    | cons k is ih =>
      have := ih fun x hx => hlt x (by simp [hx])
      simp only [List.count_cons, List.length_cons, List.sum_map_add, this]
      have hk := hlt k (by simp)
      congr 1
      clear * - hk
      induction n with
      | zero => omega
      | succ n ih =>
        rw [List.range_succ, List.map_append, List.sum_append]
        by_cases h : k = n
        · subst h
          have : ((List.range k).map fun j => if (k == j) = true then 1 else 0).sum = 0 := by
            refine List.sum_eq_zero fun x hx => ?_
            obtain ⟨j, hj, rfl⟩ := List.mem_map.1 hx
            have : k ≠ j := by have := List.mem_range.1 hj; omega
            simp [this]
          rw [this]; simp
        · rw [ih (by omega)]; simp [h]

/-! ### Buffers of the sampler -/

variable {D M O V : Type} {d : ℕ} [BufNum XR]

/-- **C80 (unwritten cells).** As long as one cell of a buffer has not been written, `get_distribution` raises; a new buffer with at least one cell does. -/
theorem C80_unwritten (hb : (BufNum.negInf : XR) = .ninf) (b : Buffer XR) (nBins : ℤ) (idx : List ℕ) (hidx : InBounds idx b.data.shape) (hget : b.data.get idx = BufNum.negInf) :
    b.getDistribution nBins = .error .valueError := by
  refine (C80_raises b nBins).2 ?_
  rintro ⟨-, h⟩
  obtain ⟨v, hv⟩ := h idx hidx
  rw [hget, hb] at hv
  cases hv

theorem C80_fresh (hb : (BufNum.negInf : XR) = .ninf) (name : String) (shape : List ℕ) (cd : ℕ) (hs : ∀ n ∈ shape, 0 < n) (nBins : ℤ) :
    (Buffer.new name shape cd : Buffer XR).getDistribution nBins = .error .valueError := by
  refine C80_unwritten hb _ nBins (shape.map fun _ => 0) ?_ rfl
  show InBounds (shape.map fun _ => 0) shape
  induction shape with
  | nil => trivial
  | cons n ns ih => exact ⟨hs n (by simp), ih fun m hm => hs m (by simp [hm])⟩

/-- A row of the other stepper leaves a cell of an acceptance buffer unwritten. -/
theorem recording_other (hb : (BufNum.negInf : XR) = .ninf) {h : Heap XR D d M O} {n T : ℕ} {P L : String} {acc : Bool → String} {log : List (Block XR d)}
    (hr : Recording h n T P L acc log) (hn : 0 < n) (hfull : (tagged log 0).length = T) (tag : Bool) (ho : ∃ o ∈ tagged log 0, o.1 ≠ tag) (nBins : ℤ) :
    ∃ b, h.res (acc tag) = some (.buffer b) ∧ b.getDistribution nBins = .error .valueError := by
  obtain ⟨b, hb1, hb2, -, hb3⟩ := hr.acc tag
  obtain ⟨o, ho, hne⟩ := ho
  obtain ⟨j, hj, rfl⟩ := List.getElem_of_mem ho
  refine ⟨b, hb1, C80_unwritten hb b nBins [0, j] ?_ ?_⟩
  · rw [hb2]; exact ⟨hn, by omega, trivial⟩
  · rw [hb3 0 j hn (by omega), List.getElem?_eq_getElem hj]
    simp [hne]

theorem loops_length {env : Env XR D d M O} {c : BundleCfg XR D d M O} {data : Data D} {gap : List (Pos XR d) → List (Pos XR d) → Prop}
    (hgap : ∀ xs ys, gap xs ys → ys.length = xs.length) {xs ys : List (Pos XR d)} {log : List (Block XR d)} (h : Loops env c data gap xs log ys) : ys.length = xs.length := by
  induction h with
  | nil => rfl
  | snoc rest hg h1 h2 ih =>
    rw [← ih, ← hgap _ _ hg, ← h1.2.2.1, ← h1.2.1.1, ← h2.2.2.1, ← h2.2.1.1]

/-- A log with at least one loop has rows of both steppers for every chain. -/
theorem loops_both {env : Env XR D d M O} (hl : env.ops.Lawful) {c : BundleCfg XR D d M O} (hc : GoodCfg c) {data : Data D} {gap : List (Pos XR d) → List (Pos XR d) → Prop}
    (hgap : ∀ xs ys, gap xs ys → ys.length = xs.length) {xs ys : List (Pos XR d)} {log : List (Block XR d)} (h : Loops env c data gap xs log ys) (hx : 0 < xs.length)
    (hlog : 0 < log.length) (tag : Bool) : ∃ o ∈ tagged log 0, o.1 ≠ tag := by
  cases h with
  | nil => simp at hlog
  | snoc rest hg h1 h2 =>
    rename_i log' ys0 ys' b1 zs b2 m k k'
    have l1 : ys'.length = xs.length := by rw [hgap _ _ hg, loops_length hgap rest]
    have l2 : zs.length = xs.length := by rw [h1.2.1.1, h1.2.2.1, l1]
    suffices hs : ∀ b ∈ [b1, b2], b.isLocal ≠ tag → (∃ r ∈ b.rows[0]?, r ≠ []) → ∃ o ∈ tagged (log' ++ [b1, b2]) 0, o.1 ≠ tag by
      cases tag with
      | false =>
        refine hs b1 (by simp) (by simp [h1.1]) ?_
        obtain ⟨x, hx0⟩ : ∃ x, ys'[0]? = some x := ⟨_, List.getElem?_eq_getElem (by omega)⟩
        refine ⟨_, h1.2.2.2 0 x hx0, ?_⟩
        rw [← List.length_pos_iff, everyNth_length _ hc.localThin, serialSample_length]
        have := hc.nLocal; have := hc.localThin
        exact Nat.div_pos (by omega) (by omega)
      | true =>
        refine hs b2 (by simp) (by simp [h2.1]) ?_
        obtain ⟨x, hx0⟩ : ∃ x, zs[0]? = some x := ⟨_, List.getElem?_eq_getElem (by omega)⟩
        obtain ⟨r, hr, hb⟩ := h2.2.2.2 0 x hx0
        refine ⟨_, hb, ?_⟩
        obtain ⟨rows, e, hlen⟩ := groupSample_ok env hl m c.nfBatch hc.nfBatch c.logpdf data c.nGlobal (.child (.child k' 1) 0) x
        rw [e] at hr
        obtain rfl : rows = r := by simpa using hr
        rw [← List.length_pos_iff, everyNth_length _ hc.globalThin, hlen]
        have := hc.nGlobal; have := hc.globalThin
        exact Nat.div_pos (by omega) (by omega)
    rintro b hb hne ⟨r, hr, hr0⟩
    obtain ⟨o, r', rfl⟩ := List.exists_cons_of_ne_nil hr0
    refine ⟨(b.isLocal, o), ?_, hne⟩
    unfold tagged
    rw [List.mem_flatMap]
    refine ⟨b, by simp only [List.mem_append]; exact Or.inr hb, ?_⟩
    rw [Option.mem_def.1 hr]
    simp

theorem accs_raise (hb : (BufNum.negInf : XR) = .ninf) {env : Env XR D d M O} (hl : env.ops.Lawful) {c : BundleCfg XR D d M O} (hc : GoodCfg c) {data : Data D}
    {gap : List (Pos XR d) → List (Pos XR d) → Prop} (hgap : ∀ xs ys, gap xs ys → ys.length = xs.length) {xs xsT xsP : List (Pos XR d)} (hx : xs.length = c.nChains)
    (hn : 0 < c.nChains) {h : Heap XR D d M O} {logT logP : List (Block XR d)} (ha : Accounted env c data gap xs h logT logP xsT xsP) (nBins : ℤ) :
    (0 < c.nTrainLoops → ∀ n ∈ ["local_accs_training", "global_accs_training"], ∃ b, h.res n = some (.buffer b) ∧ b.getDistribution nBins = .error .valueError) ∧
    (0 < c.nProdLoops → ∀ n ∈ ["local_accs_production", "global_accs_production"], ∃ b, h.res n = some (.buffer b) ∧ b.getDistribution nBins = .error .valueError) := by
  have hT := loops_length hgap ha.trainLoops
  constructor
  · intro h0 n hn'
    have key := fun tag => recording_other hb ha.train hn (ha.trainFull 0 hn) tag (loops_both hl hc hgap ha.trainLoops (by omega) (by rw [ha.trainCount]; omega) tag) nBins
    rcases List.mem_cons.1 hn' with rfl | hn'
    · exact key true
    · obtain rfl := List.mem_singleton.1 hn'
      exact key false
  · intro h0 n hn'
    have key := fun tag => recording_other hb ha.prod hn (ha.prodFull 0 hn) tag (loops_both hl hc hgap ha.prodLoops (by omega) (by rw [ha.prodCount]; omega) tag) nBins
    rcases List.mem_cons.1 hn' with rfl | hn'
    · exact key true
    · obtain rfl := List.mem_singleton.1 hn'
      exact key false

/-- **C80 (acceptance buffers).** After a complete run of `RQSpline_MALA_Bundle`, `get_distribution` raises on all four acceptance buffers (of every phase with at least one
loop): each acceptance buffer is as long as the position buffer, and the rows of the other stepper are never written. -/
theorem C80_acceptance (hb : (BufNum.negInf : XR) = .ninf) (env : Env XR D d M O) (hl : env.ops.Lawful) (c : BundleCfg XR D d M O) (hc : GoodCfg c) (data : Data D)
    (n nc : Nat) (key : Key) (kw : List (String × V)) (s s' : Sampler XR D d M O V) (hs : Sampler.new n nc key none none none (some (malaBundle c)) kw = .ok s)
    (init : InitPos XR d) (hx : init.atleast2d.length = c.nChains) (hn : 0 < c.nChains) (hrun : s.sample env init data = (.ok (), s')) (nBins : ℤ) :
    (0 < c.nTrainLoops → ∀ n ∈ ["local_accs_training", "global_accs_training"], ∃ b, s'.heap.res n = some (.buffer b) ∧ b.getDistribution nBins = .error .valueError) ∧
    (0 < c.nProdLoops → ∀ n ∈ ["local_accs_production", "global_accs_production"], ∃ b, s'.heap.res n = some (.buffer b) ∧ b.getDistribution nBins = .error .valueError) := by
  obtain ⟨logT, logP, xsT, xsP, ha⟩ := C57_accounting env hl c hc data n nc key kw s s' hs init hx hrun
  exact accs_raise hb hl hc (fun _ _ h => by rw [h]) hx hn ha nBins

/-- The same for `RQSpline_MALA_PT_Bundle`. -/
theorem C80_acceptance_tempered (hb : (BufNum.negInf : XR) = .ninf) (env : Env XR D d M O) (hl : env.ops.Lawful) (c : BundleCfg XR D d M O) (hc : GoodCfg c) (p : PTCfg XR D d)
    (data : Data D) (n nc : Nat) (key : Key) (kw : List (String × V)) (s s' : Sampler XR D d M O V) (hs : Sampler.new n nc key none none none (some (ptBundle c p)) kw = .ok s)
    (init : InitPos XR d) (hx : init.atleast2d.length = c.nChains) (hn : 0 < c.nChains) (hrun : s.sample env init data = (.ok (), s')) (nBins : ℤ) :
    (0 < c.nTrainLoops → ∀ n ∈ ["local_accs_training", "global_accs_training"], ∃ b, s'.heap.res n = some (.buffer b) ∧ b.getDistribution nBins = .error .valueError) ∧
    (0 < c.nProdLoops → ∀ n ∈ ["local_accs_production", "global_accs_production"], ∃ b, s'.heap.res n = some (.buffer b) ∧ b.getDistribution nBins = .error .valueError) := by
  obtain ⟨logT, logP, xsT, xsP, ha⟩ := C61_accounting env hl c hc p data n nc key kw s s' hs init hx hrun
  exact accs_raise hb hl hc (fun _ _ ⟨_, _, _, _, h⟩ => tempering_length _ _ _ _ _ _ _ _ _ h) hx hn ha nBins

/-- **C80 (sample buffers).** After a complete run the buffers of positions and log-densities have no unwritten cell, so `get_distribution` of a position buffer returns as soon as
all recorded positions are real numbers. -/
theorem C80_positions (env : Env XR D d M O) (hl : env.ops.Lawful) (c : BundleCfg XR D d M O) (hc : GoodCfg c) (data : Data D)
    (n nc : Nat) (key : Key) (kw : List (String × V)) (s s' : Sampler XR D d M O V) (hs : Sampler.new n nc key none none none (some (malaBundle c)) kw = .ok s)
    (init : InitPos XR d) (hx : init.atleast2d.length = c.nChains) (hrun : s.sample env init data = (.ok (), s')) :
    ∃ xsT logP xsP, Loops env c data Eq xsT logP xsP ∧
      ∀ nBins : ℤ, 1 ≤ nBins → (∀ i < c.nChains, ∀ o ∈ tagged logP i, ∀ a : Fin d, ∃ v, o.2.pos a = .fin v) →
        ∃ b r, s'.heap.res "positions_production" = some (.buffer b) ∧ b.getDistribution nBins = .ok r ∧ r.1.sum = c.nChains * c.nProdSteps * d := by
  obtain ⟨logT, logP, xsT, xsP, ha⟩ := C57_accounting env hl c hc data n nc key kw s s' hs init hx hrun
  refine ⟨xsT, logP, xsP, ha.prodLoops, fun nBins hn hf => ?_⟩
  obtain ⟨b, hb1, hb2, -, hb3⟩ := ha.prod.pos
  have hfin : AllFinite b.data := by
    intro idx hidx
    rw [hb2] at hidx
    match idx, hidx with
    | [i, j, a], ⟨h1, h2, h3, _⟩ =>
      have hlen := ha.prodFull i h1
      have := hb3 i j ⟨a, h3⟩ h1 h2
      rw [List.getElem?_eq_getElem (by omega)] at this
      simp only at this
      rw [this]
      exact hf i h1 _ (List.getElem_mem _) _
  obtain ⟨r, hr⟩ := (C80_raises b nBins).1.2 ⟨hn, hfin⟩
  refine ⟨b, r, hb1, hr, ?_⟩
  rw [(C80_counts (counts := r.1) (edges := r.2) hr).2.2.2, hb2]
  simp [mul_assoc]

/-- Non-vacuity: a buffer with the values 0, 1, 2, 2 and two bins: `[0, 1)` and `[1, 2]`. -/
example : ∃ b : Buffer XR, b.data.shape = [2, 2] ∧ b.getDistribution 2 = .ok ([1, 3], [0, 1, 2]) := by
  refine ⟨{ name := "b", data := { shape := [2, 2], get := fun idx => .fin (if idx = [0, 0] then 0 else if idx = [0, 1] then 1 else 2) } }, rfl, ?_⟩
  have hfl : ((⟨[2, 2], fun idx => .fin (if idx = [0, 0] then 0 else if idx = [0, 1] then 1 else 2)⟩ : NDArr XR).flatten) = [.fin 0, .fin 1, .fin 2, .fin 2] := by
    simp [NDArr.flatten, allIndices, List.range_succ]
  have hm : [XR.fin 0, .fin 1, .fin 2, .fin 2].mapM XR.finite? = some [(0 : ℝ), 1, 2, 2] := rfl
  have hr : histRange [(0 : ℝ), 1, 2, 2] = (0, 2) := by norm_num [histRange]
  unfold Buffer.getDistribution histogram
  simp only [hfl, hm, hr, show Int.toNat 2 = 2 from rfl]
  have i0 : histIndex (0, 2) 2 0 = 0 := by norm_num [histIndex, histEdge]
  have i1 : histIndex (0, 2) 2 1 = 1 := by norm_num [histIndex, histEdge]
  have i2 : histIndex (0, 2) 2 2 = 1 := by norm_num [histIndex, histEdge]
  norm_num [i0, i1, i2, List.range_succ, histEdge]

end
end FlowMC
