import Verif.Model.Resource
namespace FlowMC

theorem InBounds.length_eq : ∀ {idx shape : List Nat}, InBounds idx shape → idx.length = shape.length
  | [], [], _ => rfl
  | _ :: _, _ :: _, h => by simp [InBounds] at h; simp [InBounds.length_eq h.2]

theorem InBounds.getD_lt : ∀ {idx shape : List Nat} (k : Nat), InBounds idx shape → k < shape.length →
    idx.getD k 0 < shape.getD k 0
  | [], [], _, _, h => by simp at h
  | i :: is, n :: ns, 0, h, _ => by simp [InBounds] at h; simpa using h.1
  | i :: is, n :: ns, k + 1, h, hk => by
    simp [InBounds] at h
    have := InBounds.getD_lt k h.2 (by simpa using hk)
    simpa using this

/-- In-boundness after changing one coordinate of the index and of the shape. -/
theorem inBounds_set : ∀ {idx shape : List Nat} (k j m : Nat), InBounds idx shape → k < shape.length →
    (InBounds (idx.set k j) (shape.set k m) ↔ j < m)
  | [], [], _, _, _, _, h => by simp at h
  | i :: is, n :: ns, 0, j, m, h, _ => by
    simp [InBounds] at h; simp [InBounds, h.2]
  | i :: is, n :: ns, k + 1, j, m, h, hk => by
    simp [InBounds] at h
    have := inBounds_set k j m h.2 (by simpa using hk)
    simp [InBounds, h.1, this]

theorem shapeLE_set : ∀ (shape : List Nat) (k m : Nat), m ≤ shape.getD k 0 → ShapeLE (shape.set k m) shape
  | [], _, _, _ => by simp [ShapeLE]
  | n :: ns, 0, m, h => by
    simp at h
    have : ShapeLE ns ns := by
      clear h
      induction ns with
      | nil => simp [ShapeLE]
      | cons a as ih => exact ⟨Nat.le_refl _, ih⟩
    simp [ShapeLE, h, this]
  | n :: ns, k + 1, m, h => by
    have := shapeLE_set ns k m (by simpa using h)
    simp [ShapeLE, this]

theorem clampStart_fits (s n m : Nat) (h : s + m ≤ n) : clampStart (s : Int) n m = s := by
  unfold clampStart
  have : ¬ ((s : Int) < 0) := by omega
  simp only [this, if_false]
  omega

theorem clampStart_overflow (s n m : Nat) (hm : m ≤ n) (h : n < s + m) : clampStart (s : Int) n m = n - m := by
  unfold clampStart
  have : ¬ ((s : Int) < 0) := by omega
  simp only [this, if_false]
  omega

theorem clampStart_neg (s n m : Nat) (hs : 0 < s) (hn : s ≤ n) (h : m ≤ s) :
    clampStart (-(s : Int)) n m = n - s := by
  unfold clampStart
  have : (-(s : Int)) < 0 := by omega
  simp only [this, if_true]
  omega

theorem getD_set_self {l : List Nat} {k v : Nat} (h : k < l.length) : (l.set k v).getD k 0 = v := by
  simp [List.getD, h]

/-- Full-slab update: read-back formula for any clamped start. -/
theorem dynUpdate_slab {α : Type} (op upd : NDArr α) (start : Int) (dim m : Nat) (hd : dim < op.shape.length)
    (hs : upd.shape = op.shape.set dim m) (hm : m ≤ op.shape.getD dim 0) :
    ∃ r, dynUpdateSliceInDim op upd start dim = .ok r ∧ r.shape = op.shape ∧
      ∀ idx, InBounds idx op.shape →
        r.get idx = if clampStart start (op.shape.getD dim 0) m ≤ idx.getD dim 0 ∧
            idx.getD dim 0 < clampStart start (op.shape.getD dim 0) m + m
          then upd.get (idx.set dim (idx.getD dim 0 - clampStart start (op.shape.getD dim 0) m)) else op.get idx := by
  have hle : ShapeLE upd.shape op.shape := by rw [hs]; exact shapeLE_set _ _ _ hm
  unfold dynUpdateSliceInDim
  simp only [hd, hle, if_true]
  refine ⟨_, rfl, rfl, ?_⟩
  intro idx hi
  have hget : upd.shape.getD dim 0 = m := by rw [hs]; exact getD_set_self hd
  rw [hget]
  dsimp only
  generalize clampStart start (op.shape.getD dim 0) m = s
  by_cases h1 : s ≤ idx.getD dim 0
  · have := inBounds_set dim (idx.getD dim 0 - s) m hi hd
    rw [hs]
    simp only [this, h1, true_and]
    have e : (idx.getD dim 0 - s < m) ↔ (idx.getD dim 0 < s + m) := by omega
    simp only [e]
  · simp only [h1, false_and, if_false]

end FlowMC
