import Verif.Model.Strategies
import Mathlib.Data.List.Forall2
namespace FlowMC

/-! ### mapE / batching -/

theorem mapE_append {α β : Type} (f : α → Except Err β) (xs ys : List α) :
    mapE f (xs ++ ys) = match mapE f xs with
      | .error e => .error e
      | .ok as => match mapE f ys with
        | .error e => .error e
        | .ok bs => .ok (as ++ bs) := by
  induction xs with
  | nil => simp [mapE]; cases mapE f ys <;> rfl
  | cons x xs ih =>
    simp only [List.cons_append, mapE, ih]
    cases f x with
    | error e => rfl
    | ok y =>
      dsimp only
      cases mapE f xs with
      | error e => rfl
      | ok as =>
        dsimp only
        cases mapE f ys <;> rfl

theorem batchedMapE_eq {α β : Type} (f : α → Except Err β) (b : Nat) (hb : 0 < b) :
    ∀ (fuel : Nat) (xs : List α), xs.length ≤ fuel → batchedMapE f b fuel xs = mapE f xs := by
  intro fuel
  induction fuel with
  | zero =>
    intro xs h
    have : xs = [] := List.eq_nil_of_length_eq_zero (by omega)
    subst this; rfl
  | succ n ih =>
    intro xs h
    unfold batchedMapE
    by_cases he : xs = []
    · subst he; rfl
    · have hpos : 0 < xs.length := List.length_pos_iff.2 he
      simp only [List.isEmpty_iff, he, if_false]
      rw [ih (xs.drop b) (by simp; omega)]
      conv => rhs; rw [← List.take_append_drop b xs, mapE_append]
      rfl

/-- `mapE` succeeds with result `ys` iff it does pointwise. -/
theorem mapE_ok_iff {α β : Type} (f : α → Except Err β) (xs : List α) (ys : List β) :
    mapE f xs = .ok ys ↔ List.Forall₂ (fun x y => f x = .ok y) xs ys := by
  induction xs generalizing ys with
  | nil => simp [mapE, eq_comm]
  | cons x xs ih =>
    simp only [mapE]
    cases hx : f x with
    | error e =>
      simp only [reduceCtorEq, false_iff]
      intro h; cases h with | cons h1 _ => simp [hx] at h1
    | ok y =>
      dsimp only
      cases hm : mapE f xs with
      | error e =>
        simp only [reduceCtorEq, false_iff]
        intro h
        cases h with | cons h1 h2 => rw [(ih _).2 h2] at hm; simp at hm
      | ok zs =>
        simp only [Except.ok.injEq]
        constructor
        · rintro rfl; exact .cons hx ((ih _).1 hm)
        · intro h
          cases h with
          | cons h1 h2 =>
            rw [hx] at h1; rw [(ih _).2 h2] at hm
            simp at h1 hm; rw [h1, hm]

theorem mapE_pure {α β : Type} (f : α → Except Err β) (g : α → β) (xs : List α) (h : ∀ x ∈ xs, f x = .ok (g x)) :
    mapE f xs = .ok (xs.map g) := by
  induction xs with
  | nil => rfl
  | cons x xs ih =>
    simp [mapE, h x (by simp), ih (fun y hy => h y (by simp [hy]))]

theorem mapE_length {α β : Type} {f : α → Except Err β} {xs : List α} {ys : List β} (h : mapE f xs = .ok ys) :
    ys.length = xs.length := ((mapE_ok_iff f xs ys).1 h).length_eq.symm

theorem mapE_getElem {α β : Type} {f : α → Except Err β} {xs : List α} {ys : List β} (h : mapE f xs = .ok ys)
    (i : Nat) (hi : i < xs.length) : f xs[i] = .ok (ys[i]'(by rw [mapE_length h]; exact hi)) :=
  List.Forall₂.get ((mapE_ok_iff f xs ys).1 h) hi (by rw [mapE_length h]; exact hi)

/-! ### everyNth -/

theorem everyNth_length {α : Type} (t : Nat) (ht : 0 < t) (xs : List α) :
    (everyNth t xs).length = ceilDiv' xs.length t := by
  unfold everyNth ceilDiv'
  generalize hn : (xs.length + t - 1) / t = n
  have hall : ∀ j < n, j * t < xs.length := by
    intro j hj
    have h1 : j + 1 ≤ (xs.length + t - 1) / t := by omega
    have h2 := (Nat.le_div_iff_mul_le ht).1 h1
    have h3 : (j + 1) * t = j * t + t := by rw [Nat.add_mul, Nat.one_mul]
    omega
  clear hn
  induction n with
  | zero => simp
  | succ n ih =>
    rw [List.range_succ, List.filterMap_append, List.length_append, ih (fun j hj => hall j (by omega))]
    have := hall n (by omega)
    simp [this]

theorem filterMap_range_getElem? {α : Type} (f : Nat → Option α) : ∀ (m : Nat), (∀ j < m, (f j).isSome) →
    ∀ j, ((List.range m).filterMap f)[j]? = if j < m then f j else none := by
  intro m
  induction m with
  | zero => intro _ j; simp
  | succ m ih =>
    intro h j
    have ih' := ih (fun j hj => h j (by omega))
    have hlen : ((List.range m).filterMap f).length = m := by
      clear ih ih'
      induction m with
      | zero => simp
      | succ m ih2 =>
        rw [List.range_succ, List.filterMap_append, List.length_append, ih2 (fun j hj => h j (by omega))]
        have := h m (by omega)
        obtain ⟨a, ha⟩ := Option.isSome_iff_exists.1 this
        simp [ha]
    obtain ⟨a, ha⟩ := Option.isSome_iff_exists.1 (h m (by omega))
    rw [List.range_succ, List.filterMap_append]
    by_cases hj : j < m
    · rw [List.getElem?_append_left (by omega), ih' j]
      have : j < m + 1 := by omega
      simp [hj, this]
    · rw [List.getElem?_append_right (by omega), hlen]
      by_cases hj2 : j = m
      · subst hj2; simp [ha]
      · have : ¬ j < m + 1 := by omega
        have h3 : j - m ≠ 0 := by omega
        simp [ha, this, h3]

theorem everyNth_getElem? {α : Type} (t : Nat) (ht : 0 < t) (xs : List α) (j : Nat) :
    (everyNth t xs)[j]? = xs[j * t]? := by
  unfold everyNth
  have hall : ∀ j < (xs.length + t - 1) / t, j * t < xs.length := by
    intro j hj
    have h2 := (Nat.le_div_iff_mul_le ht).1 (show j + 1 ≤ (xs.length + t - 1) / t by omega)
    have h3 : (j + 1) * t = j * t + t := by rw [Nat.add_mul, Nat.one_mul]
    omega
  rw [filterMap_range_getElem? _ _ (fun j hj => by simp [hall j hj])]
  by_cases h : j < (xs.length + t - 1) / t
  · simp [h]
  · simp only [h, if_false]
    symm
    rw [List.getElem?_eq_none_iff]
    have h2 : ¬ (j + 1 ≤ (xs.length + t - 1) / t) := by omega
    rw [Nat.le_div_iff_mul_le ht] at h2
    have h3 : (j + 1) * t = j * t + t := by rw [Nat.add_mul, Nat.one_mul]
    omega

theorem ceilDiv'_dvd (n t : Nat) (ht : 0 < t) (h : t ∣ n) : ceilDiv' n t = n / t := by
  obtain ⟨k, rfl⟩ := h
  unfold ceilDiv'
  have : (t * k + t - 1) / t = k := by
    rw [Nat.div_eq_iff ht]
    constructor
    · rw [Nat.mul_comm]; omega
    · rw [Nat.mul_comm k t]; omega
  rw [this, Nat.mul_div_cancel_left _ ht]

theorem ceilDiv'_pos (n t : Nat) (ht : 0 < t) (hn : 0 < n) : 0 < ceilDiv' n t :=
  Nat.div_pos (by omega) ht

theorem ceilDiv'_mul_ge (n t : Nat) (ht : 0 < t) : n ≤ ceilDiv' n t * t := by
  unfold ceilDiv'
  have := Nat.div_add_mod (n + t - 1) t
  have h2 := Nat.mod_lt (n + t - 1) ht
  rw [Nat.mul_comm] at this
  omega

theorem ceilDiv'_mul_lt (n t : Nat) (ht : 0 < t) (hn : 0 < n) : (ceilDiv' n t - 1) * t < n := by
  have h1 : ceilDiv' n t - 1 + 1 ≤ (n + t - 1) / t := by
    have := ceilDiv'_pos n t ht hn; unfold ceilDiv' at *; omega
  have h2 := (Nat.le_div_iff_mul_le ht).1 h1
  rw [Nat.add_mul, Nat.one_mul] at h2
  omega

/-! ### scans -/

theorem scanN_length {σ β : Type} (f : σ → σ × β) (n : Nat) (s : σ) : (scanN f n s).2.length = n := by
  induction n generalizing s with
  | zero => rfl
  | succ n ih => simp [scanN, ih]

theorem scan_length {σ α β : Type} (f : σ → α → σ × β) (s : σ) (xs : List α) : (scan f s xs).2.length = xs.length := by
  induction xs generalizing s with
  | nil => rfl
  | cons x xs ih => simp [scan, ih]

/-- State before step `j` of a scan. -/
def iterState {σ β : Type} (f : σ → σ × β) : Nat → σ → σ
  | 0, s => s
  | n + 1, s => iterState f n (f s).1

theorem scanN_fst {σ β : Type} (f : σ → σ × β) (n : Nat) (s : σ) : (scanN f n s).1 = iterState f n s := by
  induction n generalizing s with
  | zero => rfl
  | succ n ih => simp [scanN, iterState, ih]

theorem iterState_succ' {σ β : Type} (f : σ → σ × β) (n : Nat) (s : σ) :
    iterState f (n + 1) s = (f (iterState f n s)).1 := by
  induction n generalizing s with
  | zero => rfl
  | succ n ih => simp only [iterState] at *; rw [ih]

theorem scanN_getElem? {σ β : Type} (f : σ → σ × β) (n : Nat) (s : σ) (j : Nat) :
    (scanN f n s).2[j]? = if j < n then some (f (iterState f j s)).2 else none := by
  induction n generalizing s j with
  | zero => simp [scanN]
  | succ n ih =>
    cases j with
    | zero => simp [scanN, iterState]
    | succ j => simp [scanN, ih, iterState]

theorem splitN_length (k : Key) (n : Nat) : (splitN k n).length = n := by simp [splitN]

theorem splitN_getElem? (k : Key) (n i : Nat) : (splitN k n)[i]? = if i < n then some (Key.child k i) else none := by
  unfold splitN
  by_cases h : i < n
  · simp [h]
  · simp [h]

/-! ### chunks -/

theorem chunks_length {α : Type} (b n : Nat) (xs : List α) : (chunks b n xs).length = n := by
  induction n generalizing xs with
  | zero => rfl
  | succ n ih => simp [chunks, ih]

theorem chunks_flatten {α : Type} (b n : Nat) (xs : List α) : (chunks b n xs).flatten = xs.take (n * b) := by
  induction n generalizing xs with
  | zero => simp [chunks]
  | succ n ih =>
    simp only [chunks, List.flatten_cons, ih]
    rw [Nat.add_mul, Nat.one_mul, Nat.add_comm, ← List.take_append_take_drop]
  where
    List.take_append_take_drop {α : Type} {b m : Nat} {xs : List α} :
        xs.take b ++ (xs.drop b).take m = xs.take (b + m) := by
      rw [List.take_add]

theorem chunks_mem_length {α : Type} (b n : Nat) (xs : List α) (h : n * b ≤ xs.length) :
    ∀ c ∈ chunks b n xs, c.length = b := by
  induction n generalizing xs with
  | zero => simp [chunks]
  | succ n ih =>
    have hb : (n + 1) * b = n * b + b := by rw [Nat.add_mul, Nat.one_mul]
    intro c hc
    simp only [chunks, List.mem_cons] at hc
    rcases hc with rfl | hc
    · simp; omega
    · exact ih (xs.drop b) (by simp; omega) c hc

end FlowMC
