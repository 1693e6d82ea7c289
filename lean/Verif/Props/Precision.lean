import Verif.Props.Serialise
/-
C82: `to_precision`.
-/
set_option linter.unusedSectionVars false
namespace FlowMC
open Spec
variable {A : Type} {conv : String → String → A → A}

/-- **C82 (names).** `to_precision(name)` raises, with a `ValueError`, exactly when `name` is none of the four names up to the case of its letters. -/
theorem C82_names (m : Module' A) (name : String) :
    (∃ m', toPrecision conv m name = .ok m') ↔ name.toLower = "float16" ∨ name.toLower = "bfloat16" ∨ name.toLower = "float32" ∨ name.toLower = "float64" := by
  unfold toPrecision precisionNames
  by_cases h : name.toLower ∈ ["float16", "bfloat16", "float32", "float64"]
  · simp only [h, if_true, Except.ok.injEq, exists_eq', true_iff]
    simpa using h
  · simp only [h, if_false, reduceCtorEq, exists_false, false_iff]
    simpa using h

/-- The error of an unknown name. -/
theorem C82_error (m : Module' A) (name : String) (e : Err) (h : toPrecision conv m name = .error e) : e = .valueError := by
  unfold toPrecision at h
  split at h
  · cases h
  · exact (Except.error.inj h).symm

/-- **C82 (what it converts).** The result has the same leaves in the same order; every array has the requested dtype (integer arrays too), its old shape and its converted contents;
everything that is not an array is unchanged. -/
theorem C82_leaves (m m' : Module' A) (name : String) (h : toPrecision conv m name = .ok m') :
    m'.length = m.length ∧ ∀ (i : ℕ) (l : Leaf A), m[i]? = some l → m'[i]? = some (match l with
      | .arr dt sh v => .arr name.toLower sh (conv dt name.toLower v)
      | .num k v => .num k v
      | .other w => .other w) := by
  unfold toPrecision at h
  split at h
  · simp only [Except.ok.injEq] at h; subst h
    refine ⟨List.length_map _, fun i l hl => ?_⟩
    rw [List.getElem?_map, hl]
    cases l <;> rfl
  · cases h

/-- **C82 (already there).** A module all of whose arrays have the requested dtype is returned unchanged. -/
theorem C82_same (hconv : ∀ dt v, conv dt dt v = v) (m : Module' A) (name : String) (hn : name.toLower ∈ precisionNames) (h : ∀ dt sh v, Leaf.arr dt sh v ∈ m → dt = name.toLower) :
    toPrecision conv m name = .ok m := by
  unfold toPrecision
  rw [if_pos hn]
  congr 1
  conv_rhs => rw [← List.map_id m]
  refine List.map_congr_left fun l hl => ?_
  cases l with
  | arr dt sh v =>
    have := h dt sh v hl
    simp only [Leaf.astype, id, ← this, hconv]
  | num k v => rfl
  | other w => rfl

/-- **C82 (repeating it).** Converting twice to the same precision is converting once. -/
theorem C82_idempotent (hconv : ∀ dt v, conv dt dt v = v) (m m' : Module' A) (name : String) (h : toPrecision conv m name = .ok m') : toPrecision conv m' name = .ok m' := by
  unfold toPrecision at h
  split at h
  · rename_i hn
    simp only [Except.ok.injEq] at h; subst h
    refine C82_same hconv _ _ hn fun dt sh v hm => ?_
    obtain ⟨l, _, e⟩ := List.mem_map.1 hm
    cases l <;> simp only [Leaf.astype, Leaf.arr.injEq, reduceCtorEq] at e
    exact e.1.symm
  · cases h

/-- **C82 (widening is lossless).** If conversion from `dt` to `wide` and back is the identity on contents (as for `float32` and `float64`), converting a module of `dt` arrays to `wide` and back
returns the module. -/
theorem C82_round_trip (hdt wide : String) (hback : ∀ v, conv wide hdt (conv hdt wide v) = v) (m : Module' A) (h : ∀ dt sh v, Leaf.arr dt sh v ∈ m → dt = hdt)
    (n1 n2 : String) (h1 : n1.toLower = wide) (h2 : n2.toLower = hdt) (hw : wide ∈ precisionNames) (hd : hdt ∈ precisionNames) :
    ∃ m', toPrecision conv m n1 = .ok m' ∧ toPrecision conv m' n2 = .ok m := by
  refine ⟨m.map (Leaf.astype conv wide), by simp [toPrecision, h1, hw], ?_⟩
  unfold toPrecision
  rw [h2, if_pos hd, List.map_map]
  congr 1
  conv_rhs => rw [← List.map_id m]
  refine List.map_congr_left fun l hl => ?_
  cases l with
  | arr dt sh v =>
    have := h dt sh v hl
    subst this
    simp only [Leaf.astype, id, Function.comp, hback]
  | num k v => rfl
  | other w => rfl

theorem architecture_astype (m : Module' A) (p : String) (e : architecture (m.map (Leaf.astype conv p)) = architecture m) : ∀ dt sh v, Leaf.arr dt sh v ∈ m → dt = p := by
  induction m with
  | nil => intro dt sh v h; cases h
  | cons l ls ih =>
    simp only [architecture, List.map_cons, List.cons.injEq] at e
    intro dt sh v h
    rcases List.mem_cons.1 h with h | h
    · subst h
      simp only [Leaf.astype, slot, Slot.arr.injEq, and_true] at e
      exact e.1.symm
    · exact ih e.2 dt sh v h

/-- **C82 (checkpoints).** A file saved from a module loads into its converted copy exactly when the conversion changed no dtype: a checkpoint of another precision raises instead of being
converted silently. -/
theorem C82_checkpoint (fs : EqxFiles A) (path : String) (m m' : Module' A) (name : String) (h : toPrecision conv m name = .ok m') :
    (∃ r, loadModel (saveModel fs path m) path m' = .ok r) ↔ ∀ dt sh v, Leaf.arr dt sh v ∈ m → dt = name.toLower := by
  have hm : m' = m.map (Leaf.astype conv name.toLower) := by
    unfold toPrecision at h
    split at h
    · exact (Except.ok.inj h).symm
    · cases h
  subst hm
  constructor
  · intro hr
    obtain ⟨pre, rest, hf, h2⟩ := (C81_loads_iff _ _ _).1 hr
    have hf' : some (m.filterMap Leaf.record) = some (pre ++ rest) := by rw [← hf]; simp [saveModel]
    have hf2 := Option.some.inj hf'
    clear hf hf' hr h
    induction m generalizing pre with
    | nil => intro dt sh v h; cases h
    | cons l ls ih =>
      intro dt sh v hl
      cases l with
      | arr dt' sh' v' =>
        rw [List.map_cons, Leaf.astype, stored_arr] at h2
        cases h2 with
        | cons hx hxs =>
          rename_i r pre'
          replace hf2 : (⟨dt', sh', v'⟩ : NpyRec A) :: ls.filterMap Leaf.record = r :: (pre' ++ rest) := hf2
          rw [List.cons.injEq] at hf2
          obtain ⟨e1, e2⟩ := hf2
          subst e1
          rcases List.mem_cons.1 hl with hl | hl
          · simp only [Leaf.arr.injEq] at hl
            rw [hl.1]
            exact hx.1
          · exact ih _ hxs e2 dt sh v hl
      | num k v' =>
        rw [List.map_cons, Leaf.astype, stored_num] at h2
        cases h2 with
        | cons hx hxs =>
          rename_i r pre'
          replace hf2 : (⟨k.dtype, [], v'⟩ : NpyRec A) :: ls.filterMap Leaf.record = r :: (pre' ++ rest) := hf2
          rw [List.cons.injEq] at hf2
          rcases List.mem_cons.1 hl with hl | hl
          · cases hl
          · exact ih _ hxs hf2.2 dt sh v hl
      | other w =>
        rw [List.map_cons, Leaf.astype, stored_other] at h2
        replace hf2 : ls.filterMap Leaf.record = pre ++ rest := hf2
        rcases List.mem_cons.1 hl with hl | hl
        · cases hl
        · exact ih _ h2 hf2 dt sh v hl
  · intro hall
    have ha : architecture (m.map (Leaf.astype conv name.toLower)) = architecture m := by
      simp only [architecture, List.map_map]
      refine List.map_congr_left fun l hl => ?_
      cases l with
      | arr dt sh v => simp [Leaf.astype, slot, hall dt sh v hl]
      | num k v => rfl
      | other w => rfl
    exact ⟨m, (C81_round_trip fs path m _ ha).1⟩

/-- Non-vacuity: a module with a float and an integer array: both are converted (the integer one included), the Python number is not; an unknown name raises. -/
example : toPrecision (fun _ _ v => v) [Leaf.arr "float32" [2] 7, .arr "int32" [] 1, .num .float 3, .other "tanh"] "Float64" =
      .ok [Leaf.arr "float64" [2] 7, .arr "float64" [] 1, .num .float 3, .other "tanh"] ∧
    ¬ ∃ m', toPrecision (fun _ _ v => v) [Leaf.arr "float32" [2] (7 : ℕ)] "double" = .ok m' := by
  have l1 : ("Float64" : String).toLower = "float64" := by rw [← String.toList_inj, String.toLower, String.toList_map]; decide
  have l2 : ("double" : String).toLower = "double" := by rw [← String.toList_inj, String.toLower, String.toList_map]; decide
  refine ⟨?_, ?_⟩
  · unfold toPrecision precisionNames; rw [l1, if_pos (by decide)]; rfl
  · rw [C82_names, l2]; decide

end FlowMC
