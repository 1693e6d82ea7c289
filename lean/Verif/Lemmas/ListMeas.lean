import Mathlib.MeasureTheory.MeasurableSpace.Constructions
import Mathlib.MeasureTheory.Constructions.BorelSpace.Real
/-
Lists as a measurable space: a set of lists is measurable if for every length the vectors it contains form a measurable set.
-/
open MeasureTheory
namespace FlowMC

variable {Ω A B α β ι : Type}

instance listMeasurable [MeasurableSpace α] : MeasurableSpace (List α) where
  MeasurableSet' S := ∀ n, MeasurableSet {v : Fin n → α | List.ofFn v ∈ S}
  measurableSet_empty n := by simp
  measurableSet_compl S h n := (h n).compl
  measurableSet_iUnion f h n := by
    have : {v : Fin n → α | List.ofFn v ∈ ⋃ i, f i} = ⋃ i, {v : Fin n → α | List.ofFn v ∈ f i} := by ext; simp
    rw [this]; exact MeasurableSet.iUnion fun i => h i n

/-- A family indexed by a measurable random index. -/
theorem measurable_index [MeasurableSpace Ω] [MeasurableSpace β] [Countable ι] [MeasurableSpace ι] [DiscreteMeasurableSpace ι] {I : Ω → ι} (hI : Measurable I) {f : ι → Ω → β} (hf : ∀ i, Measurable (f i)) :
    Measurable fun ω => f (I ω) ω := by
  intro S hS
  have : (fun ω => f (I ω) ω) ⁻¹' S = ⋃ i, I ⁻¹' {i} ∩ f i ⁻¹' S := by ext ω; simp
  rw [this]
  exact MeasurableSet.iUnion fun i => (hI (measurableSet_singleton i)).inter (hf i hS)

section
variable [MeasurableSpace Ω] [MeasurableSpace A] [MeasurableSpace B] [MeasurableSpace α] [MeasurableSpace β]

theorem measurable_ofFn (n : ℕ) : Measurable fun v : Fin n → α => List.ofFn v := fun _ hS => hS n

theorem measurable_from_list {f : List α → β} (h : ∀ n, Measurable fun v : Fin n → α => f (List.ofFn v)) : Measurable f := fun S hS n => h n hS

theorem measurable_length : Measurable (List.length : List α → ℕ) := measurable_from_list fun n => by
  simp only [List.length_ofFn]; exact measurable_const

theorem ofFn_getD (l : List α) (a : α) : List.ofFn (fun i : Fin l.length => l.getD i a) = l := by
  apply List.ext_getElem <;> simp

theorem measurable_getD (i : ℕ) (a : α) : Measurable fun l : List α => l.getD i a := by
  refine measurable_from_list fun n => ?_
  by_cases h : i < n
  · have : (fun v : Fin n → α => (List.ofFn v).getD i a) = fun v => v ⟨i, h⟩ := by funext v; simp [h]
    rw [this]; exact measurable_pi_apply _
  · have : (fun v : Fin n → α => (List.ofFn v).getD i a) = fun _ => a := by funext v; simp [h]
    rw [this]; exact measurable_const

/-- Joint measurability in a parameter and a list, length by length. -/
theorem measurable_prod_list {f : A × List α → β} (h : ∀ n, Measurable fun p : A × (Fin n → α) => f (p.1, List.ofFn p.2)) : Measurable f := by
  by_cases hα : Nonempty α
  · obtain ⟨a⟩ := hα
    have hlen : Measurable fun p : A × List α => p.2.length := measurable_length.comp measurable_snd
    have key : f = fun p => (fun (n : ℕ) (p : A × List α) => f (p.1, List.ofFn (fun i : Fin n => p.2.getD i a))) p.2.length p := by
      funext p; simp only [ofFn_getD]
    rw [key]
    refine measurable_index (f := fun (n : ℕ) (p : A × List α) => f (p.1, List.ofFn (fun i : Fin n => p.2.getD i a))) hlen fun n => ?_
    have e : Measurable fun p : A × List α => (p.1, fun i : Fin n => p.2.getD i a) :=
      measurable_fst.prodMk (measurable_pi_lambda _ fun i => (measurable_getD i a).comp measurable_snd)
    exact (h n).comp e
  · have hl : ∀ l : List α, l = List.ofFn (Fin.elim0 : Fin 0 → α) := fun l => by
      cases l with
      | nil => simp
      | cons x _ => exact absurd ⟨x⟩ hα
    have e : f = fun p => f (p.1, List.ofFn (Fin.elim0 : Fin 0 → α)) := funext fun p => by rw [← hl p.2]
    rw [e]
    exact (h 0).comp (measurable_fst.prodMk measurable_const)

theorem measurable_cons : Measurable fun p : α × List α => p.1 :: p.2 := by
  refine measurable_prod_list fun n => ?_
  have : (fun p : α × (Fin n → α) => p.1 :: List.ofFn p.2) = fun p => List.ofFn (Fin.cons p.1 p.2 : Fin (n + 1) → α) := by
    funext p; simp [List.ofFn_succ]
  rw [this]
  refine (measurable_ofFn (n + 1)).comp (measurable_pi_lambda _ fun i => ?_)
  refine Fin.cases ?_ (fun j => ?_) i
  · exact measurable_fst
  · exact (measurable_pi_apply j).comp measurable_snd

theorem listCons_meas {x : Ω → α} {l : Ω → List α} (hx : Measurable x) (hl : Measurable l) : Measurable fun ω => x ω :: l ω :=
  measurable_cons.comp (hx.prodMk hl)

/-- A measurable function of lists defined by recursion (with a parameter). -/
theorem measurable_list_rec {f : A → List α → β} {g : A → β} {s : A → α → List α → β → β} (hf0 : ∀ a, f a [] = g a) (hf1 : ∀ a x l, f a (x :: l) = s a x l (f a l)) (hg : Measurable g)
    (hs : Measurable fun p : A × α × List α × β => s p.1 p.2.1 p.2.2.1 p.2.2.2) : Measurable fun p : A × List α => f p.1 p.2 := by
  refine measurable_prod_list fun n => ?_
  induction n with
  | zero => simp only [List.ofFn_zero, hf0]; exact hg.comp measurable_fst
  | succ n ih =>
    have e : (fun p : A × (Fin (n + 1) → α) => f p.1 (List.ofFn p.2)) = fun p => s p.1 (p.2 0) (List.ofFn fun i : Fin n => p.2 i.succ) (f p.1 (List.ofFn fun i : Fin n => p.2 i.succ)) := by
      funext p; rw [List.ofFn_succ, hf1]
    rw [e]
    have t : Measurable fun p : A × (Fin (n + 1) → α) => (fun i : Fin n => p.2 i.succ) := measurable_pi_lambda _ fun i => (measurable_pi_apply _).comp measurable_snd
    have h1 : Measurable fun p : A × (Fin (n + 1) → α) => List.ofFn fun i : Fin n => p.2 i.succ := (measurable_ofFn n).comp t
    have h2 : Measurable fun p : A × (Fin (n + 1) → α) => f p.1 (List.ofFn fun i : Fin n => p.2 i.succ) := Measurable.comp ih (measurable_fst.prodMk t)
    exact hs.comp (measurable_fst.prodMk (((measurable_pi_apply 0).comp measurable_snd).prodMk (h1.prodMk h2)))

theorem measurable_filter {p : α → Bool} (hp : MeasurableSet {x | p x = true}) : Measurable fun l : List α => l.filter p := by
  have := measurable_list_rec (A := Unit) (f := fun _ l => l.filter p) (g := fun _ => []) (s := fun _ x _ r => if p x = true then x :: r else r) (fun _ => rfl)
    (fun _ x l => by by_cases h : p x = true <;> simp [h]) measurable_const ?_
  · exact this.comp ((measurable_const (a := ())).prodMk measurable_id)
  · have hx : Measurable fun q : Unit × α × List α × List α => q.2.1 := measurable_fst.comp measurable_snd
    have hr : Measurable fun q : Unit × α × List α × List α => q.2.2.2 := measurable_snd.comp (measurable_snd.comp measurable_snd)
    exact Measurable.ite (hx hp) (listCons_meas hx hr) hr

theorem measurable_append : Measurable fun p : List α × List α => p.1 ++ p.2 := by
  have := measurable_list_rec (A := List α) (f := fun b l => l ++ b) (g := fun b => b) (s := fun _ x _ r => x :: r) (fun _ => rfl) (fun _ _ _ => rfl) measurable_id
    (listCons_meas (measurable_fst.comp measurable_snd) (measurable_snd.comp (measurable_snd.comp measurable_snd)))
  exact this.comp (measurable_snd.prodMk measurable_fst)

theorem listAppend_meas {l l' : Ω → List α} (h : Measurable l) (h' : Measurable l') : Measurable fun ω => l ω ++ l' ω := measurable_append.comp (h.prodMk h')

theorem measurable_tail : Measurable (List.tail : List α → List α) := by
  have := measurable_list_rec (A := Unit) (f := fun _ (l : List α) => l.tail) (g := fun _ => []) (s := fun _ _ l _ => l) (fun _ => rfl) (fun _ _ _ => rfl) measurable_const
    (measurable_fst.comp (measurable_snd.comp measurable_snd))
  exact this.comp ((measurable_const (a := ())).prodMk measurable_id)

theorem measurable_drop (n : ℕ) : Measurable fun l : List α => l.drop n := by
  induction n with
  | zero => simp only [List.drop_zero]; exact measurable_id
  | succ n ih =>
    have : (fun l : List α => l.drop (n + 1)) = fun l => l.tail.drop n := by funext l; simp
    rw [this]; exact ih.comp measurable_tail

theorem measurable_take (n : ℕ) : Measurable fun l : List α => l.take n := by
  induction n with
  | zero => simpa using measurable_const
  | succ n ih =>
    have := measurable_list_rec (A := Unit) (f := fun _ (l : List α) => l.take (n + 1)) (g := fun _ => []) (s := fun _ x l _ => x :: l.take n) (fun _ => rfl) (fun _ _ _ => by simp) measurable_const
      (listCons_meas (measurable_fst.comp measurable_snd) (ih.comp (measurable_fst.comp (measurable_snd.comp measurable_snd))))
    exact this.comp ((measurable_const (a := ())).prodMk measurable_id)

/-- Entries at fixed places. -/
theorem measurable_select (idx : List ℕ) : Measurable fun l : List α => idx.filterMap (l[·]?) := by
  by_cases hα : Nonempty α
  · obtain ⟨a⟩ := hα
    induction idx with
    | nil => simpa using measurable_const
    | cons i idx ih =>
      have : (fun l : List α => (i :: idx).filterMap (l[·]?)) = fun l => if i < l.length then l.getD i a :: idx.filterMap (l[·]?) else idx.filterMap (l[·]?) := by
        funext l
        by_cases h : i < l.length <;> simp [List.filterMap_cons, h]
      rw [this]
      exact Measurable.ite (measurable_length (measurableSet_Ioi : MeasurableSet (Set.Ioi i))) (listCons_meas (measurable_getD i a) ih) ih
  · have hl : ∀ l : List α, l = [] := fun l => by
      cases l with
      | nil => rfl
      | cons x _ => exact absurd ⟨x⟩ hα
    have : (fun l : List α => idx.filterMap (l[·]?)) = fun _ => idx.filterMap (([] : List α)[·]?) := funext fun l => by rw [hl l]
    rw [this]; exact measurable_const

/-- A fixed number of measurable lists, one after the other. -/
theorem measurable_flatMap (is : List ι) {f : ι → Ω → List α} (h : ∀ i ∈ is, Measurable (f i)) : Measurable fun ω => is.flatMap fun i => f i ω := by
  induction is with
  | nil => simpa using measurable_const
  | cons i is ih => simpa only [List.flatMap_cons] using listAppend_meas (h i (by simp)) (ih fun j hj => h j (by simp [hj]))

theorem measurable_map_fixed (is : List ι) {f : ι → Ω → α} (h : ∀ i ∈ is, Measurable (f i)) : Measurable fun ω => is.map fun i => f i ω := by
  induction is with
  | nil => simpa using measurable_const
  | cons i is ih => simpa only [List.map_cons] using listCons_meas (h i (by simp)) (ih fun j hj => h j (by simp [hj]))
end

instance : DiscreteMeasurableSpace (List ℕ) := ⟨fun _ _ => MeasurableSet.of_discrete⟩

end FlowMC
