import Verif.Spec.Serialise
import Mathlib.Data.List.Forall2
import Mathlib.Tactic.Cases
/-
C81: saving and loading flows.
-/
set_option linter.unusedSectionVars false
namespace FlowMC
open Spec
variable {A : Type}

theorem sameKind_iff (a b : Leaf A) : a.sameKind b = true ↔ slot a = slot b := by
  cases a <;> cases b <;> simp [Leaf.sameKind, slot]

theorem kind_dtype (k : PyKind) : PyKind.ofDtype k.dtype = k := by cases k <;> rfl

/-- A module is its architecture and its contents. -/
theorem module_ext : ∀ {m m' : Module' A}, architecture m = architecture m' → contents m = contents m' → m = m'
  | [], [], _, _ => rfl
  | [], _ :: _, h, _ => by simp [architecture] at h
  | _ :: _, [], h, _ => by simp [architecture] at h
  | l :: ls, l' :: ls', h, hc => by
    simp only [architecture, List.map_cons, List.cons.injEq] at h
    obtain ⟨h1, h2⟩ := h
    cases l <;> cases l' <;> simp only [slot, Slot.arr.injEq, Slot.num.injEq, Slot.other.injEq, reduceCtorEq] at h1
    · obtain ⟨rfl, rfl⟩ := h1
      simp only [contents, List.filterMap_cons, List.cons.injEq] at hc
      rw [hc.1, module_ext (m := ls) (m' := ls') h2 hc.2]
    · subst h1
      simp only [contents, List.filterMap_cons, List.cons.injEq] at hc
      rw [hc.1, module_ext (m := ls) (m' := ls') h2 hc.2]
    · subst h1
      simp only [contents, List.filterMap_cons] at hc
      rw [module_ext (m := ls) (m' := ls') h2 hc]

theorem readLeaves_length : ∀ {m : Module' A} {rs : List (NpyRec A)} {m' : Module' A}, readLeaves m rs = .ok m' → m'.length = m.length
  | [], _, m', h => by simp only [readLeaves, Except.ok.injEq] at h; subst h; rfl
  | .other w :: ls, rs, m', h => by
    simp only [readLeaves, Except.map] at h
    split at h
    · cases h
    · rename_i xs e
      simp only [Except.ok.injEq] at h; subst h
      simp [readLeaves_length e]
  | .arr _ _ _ :: ls, [], m', h => by simp [readLeaves] at h
  | .num _ _ :: ls, [], m', h => by simp [readLeaves] at h
  | .arr _ _ _ :: ls, r :: rs, m', h => by
    simp only [readLeaves, bind, Except.bind, Leaf.read] at h
    split at h
    · cases h
    · rename_i xs e
      simp only [Except.ok.injEq] at h; subst h
      simp [readLeaves_length e]
  | .num _ _ :: ls, r :: rs, m', h => by
    simp only [readLeaves, bind, Except.bind, Leaf.read] at h
    split at h
    · cases h
    · split at h
      · cases h
      · rename_i xs e
        simp only [Except.ok.injEq] at h; subst h
        simp [readLeaves_length e]

/-- What a successful load consists of. -/
theorem load_ok {fs : EqxFiles A} {path : String} {self m : Module' A} (h : loadModel fs path self = .ok m) :
    architecture m = architecture self ∧ ∃ rs, fs (path ++ ".eqx") = some rs ∧ readLeaves self rs = .ok m := by
  unfold loadModel at h
  split at h
  · cases h
  · rename_i rs hrs
    split at h
    · cases h
    · rename_i m' e
      split at h
      · rename_i hc
        simp only [Except.ok.injEq] at h; subst h
        refine ⟨?_, rs, hrs, e⟩
        have hl := readLeaves_length e
        clear e hrs
        induction self generalizing m' with
        | nil => cases m' <;> simp_all [architecture]
        | cons l ls ih =>
          cases m' with
          | nil => simp at hl
          | cons x xs =>
            simp only [List.zip_cons_cons, List.all_cons, Bool.and_eq_true] at hc
            simp only [architecture, List.map_cons, List.cons.injEq]
            exact ⟨((sameKind_iff _ _).1 hc.1).symm, ih xs hc.2 (by simpa using hl)⟩
      · cases h

theorem readLeaves_contents : ∀ {m : Module' A} {rs : List (NpyRec A)} {m' : Module' A}, readLeaves m rs = .ok m' →
    contents m' = (rs.map (·.val)).take (stored m).length ∧ (stored m).length ≤ rs.length
  | [], _, m', h => by simp only [readLeaves, Except.ok.injEq] at h; subst h; simp [contents, stored, architecture]
  | .other w :: ls, rs, m', h => by
    simp only [readLeaves, Except.map] at h
    split at h
    · cases h
    · rename_i xs e
      simp only [Except.ok.injEq] at h; subst h
      simpa [contents, stored, architecture, slot] using readLeaves_contents e
  | .arr _ _ _ :: ls, [], m', h => by simp [readLeaves] at h
  | .num _ _ :: ls, [], m', h => by simp [readLeaves] at h
  | .arr _ _ _ :: ls, r :: rs, m', h => by
    simp only [readLeaves, bind, Except.bind, Leaf.read] at h
    split at h
    · cases h
    · rename_i xs e
      simp only [Except.ok.injEq] at h; subst h
      have := readLeaves_contents e
      simpa [contents, stored, architecture, slot] using this
  | .num _ _ :: ls, r :: rs, m', h => by
    simp only [readLeaves, bind, Except.bind, Leaf.read] at h
    split at h
    · cases h
    · split at h
      · cases h
      · rename_i x e1 _ xs e
        split at e1
        · simp only [Except.ok.injEq] at h e1; subst h; subst e1
          have := readLeaves_contents e
          simpa [contents, stored, architecture, slot] using this
        · cases e1

theorem saved_vals (m : Module' A) : ((m.filterMap Leaf.record).map (·.val)) = contents m := by
  induction m with
  | nil => rfl
  | cons l ls ih =>
    cases l
    · simpa [Leaf.record, contents] using ih
    · simpa [Leaf.record, contents] using ih
    · simpa [List.filterMap_cons, Leaf.record, contents] using ih

theorem stored_arr (dt : String) (sh : List ℕ) (v : A) (ls : Module' A) : stored (.arr dt sh v :: ls) = .arr dt sh :: stored ls := rfl
theorem stored_num (k : PyKind) (v : A) (ls : Module' A) : stored (.num k v :: ls) = .num k :: stored ls := rfl
theorem stored_other (w : String) (ls : Module' A) : stored (.other w :: ls) = stored ls := rfl

theorem fits_num (k : PyKind) (r : NpyRec A) : Fits (.num k) r ↔ r.shape.prod = 1 ∧ PyKind.ofDtype r.dtype = k := by
  unfold PyKind.ofDtype
  cases k <;> simp only [Fits] <;> refine and_congr_right fun _ => ?_
  all_goals
    by_cases h1 : r.dtype = "bool"
    · simp [h1]
    · by_cases h2 : r.dtype = "float64" ∨ r.dtype = "float32" ∨ r.dtype = "float16" <;> simp [h1, h2] <;> tauto

theorem saved_fits (m : Module' A) : List.Forall₂ Fits (stored m) (m.filterMap Leaf.record) := by
  induction m with
  | nil => exact .nil
  | cons l ls ih =>
    cases l with
    | arr dt sh v => exact .cons ⟨rfl, rfl⟩ ih
    | num k v => exact .cons ((fits_num _ _).2 ⟨rfl, kind_dtype k⟩) ih
    | other w => exact ih

/-- The reading pass succeeds with the right architecture exactly when the file begins with records that fit. -/
theorem readLeaves_iff : ∀ (self : Module' A) (rs : List (NpyRec A)),
    (∃ m, readLeaves self rs = .ok m ∧ architecture m = architecture self) ↔ ∃ pre rest, rs = pre ++ rest ∧ List.Forall₂ Fits (stored self) pre
  | [], rs => by
    refine ⟨fun _ => ⟨[], rs, rfl, .nil⟩, fun _ => ⟨[], rfl, rfl⟩⟩
  | .other w :: ls, rs => by
    rw [stored_other, ← readLeaves_iff ls rs]
    constructor
    · rintro ⟨m, e, ha⟩
      simp only [readLeaves, Except.map] at e
      split at e
      · cases e
      · rename_i xs e'
        simp only [Except.ok.injEq] at e; subst e
        exact ⟨xs, e', (List.cons.inj ha).2⟩
    · rintro ⟨m, e, ha⟩
      exact ⟨.other w :: m, by simp [readLeaves, e, Except.map], by unfold architecture at ha ⊢; rw [List.map_cons, ha]; rfl⟩
  | .arr dt sh v :: ls, [] => by
    simp only [readLeaves, reduceCtorEq, false_and, exists_false, false_iff]
    rintro ⟨pre, rest, h1, h2⟩
    rw [stored_arr] at h2
    cases h2
    cases h1
  | .num k v :: ls, [] => by
    simp only [readLeaves, reduceCtorEq, false_and, exists_false, false_iff]
    rintro ⟨pre, rest, h1, h2⟩
    rw [stored_num] at h2
    cases h2
    cases h1
  | .arr dt sh v :: ls, r :: rs => by
    rw [stored_arr]
    have ih := readLeaves_iff ls rs
    constructor
    · rintro ⟨m, e, ha⟩
      simp only [readLeaves, bind, Except.bind, Leaf.read] at e
      split at e
      · cases e
      · rename_i xs e'
        simp only [Except.ok.injEq] at e; subst e
        obtain ⟨h1, h2⟩ := List.cons.inj ha
        obtain ⟨pre, rest, rfl, hf⟩ := ih.1 ⟨xs, e', h2⟩
        exact ⟨r :: pre, rest, rfl, .cons (Slot.arr.inj h1) hf⟩
    · rintro ⟨pre, rest, h1, h2⟩
      cases h2 with
      | cons hf h2 =>
        obtain ⟨rfl, rfl⟩ := List.cons.inj h1
        obtain ⟨m, e, ha⟩ := ih.2 ⟨_, rest, rfl, h2⟩
        replace e : readLeaves ls (_ ++ rest) = .ok m := e
        obtain ⟨rfl, rfl⟩ := hf
        exact ⟨.arr r.dtype r.shape r.val :: m, by simp [readLeaves, Leaf.read, e, bind, Except.bind], by unfold architecture at ha ⊢; rw [List.map_cons, ha]; rfl⟩
  | .num k v :: ls, r :: rs => by
    rw [stored_num]
    have ih := readLeaves_iff ls rs
    constructor
    · rintro ⟨m, e, ha⟩
      simp only [readLeaves, bind, Except.bind, Leaf.read] at e
      split at e
      · cases e
      · rename_i x e1
        split at e1
        · rename_i hp
          simp only [Except.ok.injEq] at e1; subst e1
          split at e
          · cases e
          · rename_i xs e'
            simp only [Except.ok.injEq] at e; subst e
            obtain ⟨h1, h2⟩ := List.cons.inj ha
            obtain ⟨pre, rest, rfl, hf⟩ := ih.1 ⟨xs, e', h2⟩
            exact ⟨r :: pre, rest, rfl, .cons ((fits_num _ _).2 ⟨hp, Slot.num.inj h1⟩) hf⟩
        · cases e1
    · rintro ⟨pre, rest, h1, h2⟩
      cases h2 with
      | cons hf h2 =>
        obtain ⟨rfl, rfl⟩ := List.cons.inj h1
        obtain ⟨m, e, ha⟩ := ih.2 ⟨_, rest, rfl, h2⟩
        replace e : readLeaves ls (_ ++ rest) = .ok m := e
        obtain ⟨hp, rfl⟩ := (fits_num _ _).1 hf
        exact ⟨.num (PyKind.ofDtype r.dtype) r.val :: m, by simp [readLeaves, Leaf.read, hp, e, bind, Except.bind], by unfold architecture at ha ⊢; rw [List.map_cons, ha]; rfl⟩

theorem loadModel_ok {fs : EqxFiles A} {path : String} {self m : Module' A} {rs : List (NpyRec A)} (h : fs (path ++ ".eqx") = some rs) (e : readLeaves self rs = .ok m)
    (ha : architecture m = architecture self) : loadModel fs path self = .ok m := by
  unfold loadModel
  simp only [h, e]
  rw [if_pos]
  rw [List.all_eq_true]
  intro p hp
  obtain ⟨i, hi, rfl⟩ := List.getElem_of_mem hp
  simp only [List.getElem_zip, sameKind_iff]
  have h2 := congrArg (fun l => l[i]?) ha
  have hl : m.length = self.length := readLeaves_length e
  have hi1 : i < self.length := by simp only [List.length_zip] at hi; omega
  have hi2 : i < m.length := by omega
  simp only [architecture, List.getElem?_map, List.getElem?_eq_getElem hi1, List.getElem?_eq_getElem hi2, Option.map_some, Option.some.injEq] at h2
  exact h2.symm

/-- **C81 (when it loads).** `load_model(path)` returns exactly when the file exists and its records, in order, begin with one fitting record for each array and number of the
receiver: any difference in a shape, a dtype or a type raises, and so does a file that is too short.  Records beyond those needed are ignored without an error. -/
theorem C81_loads_iff (fs : EqxFiles A) (path : String) (self : Module' A) :
    (∃ m, loadModel fs path self = .ok m) ↔ ∃ pre rest, fs (path ++ ".eqx") = some (pre ++ rest) ∧ List.Forall₂ Fits (stored self) pre := by
  constructor
  · rintro ⟨m, h⟩
    obtain ⟨ha, rs, hrs, e⟩ := load_ok h
    obtain ⟨pre, rest, rfl, hf⟩ := (readLeaves_iff self rs).1 ⟨m, e, ha⟩
    exact ⟨pre, rest, hrs, hf⟩
  · rintro ⟨pre, rest, hrs, hf⟩
    obtain ⟨m, e, ha⟩ := (readLeaves_iff self _).2 ⟨pre, rest, rfl, hf⟩
    exact ⟨m, loadModel_ok hrs e ha⟩

/-- **C81 (no mixture).** Whatever the file contains, `load_model` raises or returns a module of the receiver's architecture all of whose arrays and numbers are those of the file, in
order: no parameter of the receiver survives. -/
theorem C81_all_from_file (fs : EqxFiles A) (path : String) (self m : Module' A) (h : loadModel fs path self = .ok m) :
    architecture m = architecture self ∧ ∃ rs, fs (path ++ ".eqx") = some rs ∧ contents m = (rs.map (·.val)).take (stored self).length ∧ (stored self).length ≤ rs.length := by
  obtain ⟨ha, rs, hrs, e⟩ := load_ok h
  exact ⟨ha, rs, hrs, readLeaves_contents e⟩

/-- **C81 (round trip).** A module saved by `save_model(path)` and loaded with `load_model(path)` on any module of the same architecture, whatever the latter's parameters, is the
saved module; so every function of the module (`log_prob`, `sample`, …) has the same values.  Files under other paths are untouched. -/
theorem C81_round_trip (fs : EqxFiles A) (path : String) (m self : Module' A) (h : architecture self = architecture m) :
    loadModel (saveModel fs path m) path self = .ok m ∧ ∀ q, q ≠ path ++ ".eqx" → saveModel fs path m q = fs q := by
  have hf : saveModel fs path m (path ++ ".eqx") = some (m.filterMap Leaf.record) := by simp [saveModel]
  have hst : stored self = stored m := by rw [stored, stored, h]
  refine ⟨?_, fun q hq => by simp [saveModel, hq]⟩
  obtain ⟨m', hl⟩ := (C81_loads_iff (saveModel fs path m) path self).2 ⟨_, [], by rw [hf, List.append_nil], hst ▸ saved_fits m⟩
  obtain ⟨ha, rs, hrs, hc, hle⟩ := C81_all_from_file _ _ _ _ hl
  rw [hf] at hrs
  obtain rfl := Option.some.inj hrs
  rw [hl, module_ext (ha.trans h)]
  rw [hc, saved_vals, List.take_of_length_le]
  rw [← saved_vals, List.length_map, hst]
  have := (saved_fits m).length_eq
  omega

/-- **C81 (history).** After any sequence of saves under any paths, loading from `path` gives the last module saved there. -/
theorem C81_last_save (fs : EqxFiles A) (saves : List (String × Module' A)) (path : String) (m : Module' A) (later : List (String × Module' A)) (hlater : ∀ s ∈ later, s.1 ≠ path)
    (self : Module' A) (h : architecture self = architecture m) :
    loadModel ((saves ++ (path, m) :: later).foldl (fun fs s => saveModel fs s.1 s.2) fs) path self = .ok m := by
  rw [List.foldl_append, List.foldl_cons]
  generalize saves.foldl (fun fs s => saveModel fs s.1 s.2) fs = fs'
  have key : ∀ (later : List (String × Module' A)) (g : EqxFiles A), (∀ s ∈ later, s.1 ≠ path) →
      later.foldl (fun fs s => saveModel fs s.1 s.2) g (path ++ ".eqx") = g (path ++ ".eqx") := by
    intro later
    induction later with
    | nil => intro g _; rfl
    | cons s rest ih =>
      intro g hs
      rw [List.foldl_cons, ih _ fun t ht => hs t (by simp [ht])]
      have hne := hs s (by simp)
      have : path ++ ".eqx" ≠ s.1 ++ ".eqx" := fun e => hne (by
        have := congrArg String.toList e
        rw [String.toList_append, String.toList_append] at this
        exact (String.toList_injective (List.append_cancel_right this)).symm)
      simp [saveModel, this]
  have h1 := (C81_round_trip fs' path m self h).1
  unfold loadModel at h1 ⊢
  rw [key later _ hlater]
  exact h1

/-- Non-vacuity: a module with an array, a number and a function; loading it into an untrained copy returns it, loading it into one with another shape raises, and loading it into
one with fewer arrays drops the surplus silently. -/
example (fs : EqxFiles ℕ) :
    loadModel (saveModel fs "f" [.arr "float32" [2] 7, .num .int 3, .other "tanh"]) "f" [.arr "float32" [2] 0, .num .int 0, .other "tanh"] =
      .ok [.arr "float32" [2] 7, .num .int 3, .other "tanh"] ∧
    (¬ ∃ m, loadModel (saveModel fs "f" [.arr "float32" [2] 7, .num .int 3, .other "tanh"]) "f" [.arr "float32" [3] 0, .num .int 0, .other "tanh"] = .ok m) ∧
    loadModel (saveModel fs "f" [.arr "float32" [2] 7, .num .int 3, .other "tanh"]) "f" [.arr "float32" [2] 0, .other "relu"] = .ok [.arr "float32" [2] 7, .other "relu"] := by
  refine ⟨(C81_round_trip fs "f" [.arr "float32" [2] 7, .num .int 3, .other "tanh"] [.arr "float32" [2] 0, .num .int 0, .other "tanh"] rfl).1, ?_, rfl⟩
  rintro ⟨m, h⟩
  cases h

end FlowMC
