import Verif.Lemmas.NDArr
import Verif.Spec.Log
import Verif.Spec.Files
/-
C01–C06: Buffer and State resources.
-/
namespace FlowMC
open Spec

/-- C01. An in-range `update_buffer` stores the block at `[start, start+m)` along the cursor dimension and
changes nothing else (neither other cells, nor shape, name, cursor). -/
theorem C01_update_window {F : Type} (b : Buffer F) (upd : NDArr F) (start m : Nat)
    (hdim : b.cursorDim < b.data.shape.length)
    (hblock : IsBlock b.data.shape b.cursorDim m upd)
    (hfit : start + m ≤ b.data.shape.getD b.cursorDim 0) :
    ∃ b', b.updateBuffer upd start = .ok b' ∧
      b'.data.shape = b.data.shape ∧ b'.name = b.name ∧ b'.cursor = b.cursor ∧ b'.cursorDim = b.cursorDim ∧
      ∀ idx, InBounds idx b.data.shape →
        b'.data.get idx =
          if start ≤ idx.getD b.cursorDim 0 ∧ idx.getD b.cursorDim 0 < start + m
          then upd.get (idx.set b.cursorDim (idx.getD b.cursorDim 0 - start))
          else b.data.get idx := by
  obtain ⟨r, h1, h2, h3⟩ := dynUpdate_slab b.data upd start b.cursorDim m hdim hblock (by omega)
  rw [clampStart_fits start _ m hfit] at h3
  refine ⟨{ b with data := r }, ?_, h2, rfl, rfl, rfl, h3⟩
  unfold Buffer.updateBuffer
  rw [h1]

/-- C01 (counting from the end). A negative start `-s` addresses the row `s` places before the end of the cursor dimension, as python indexing does: if the block fits from
there, it is stored at `[n - s, n - s + m)` and nothing else changes. -/
theorem C01_negative_start {F : Type} (b : Buffer F) (upd : NDArr F) (s m : Nat)
    (hdim : b.cursorDim < b.data.shape.length)
    (hblock : IsBlock b.data.shape b.cursorDim m upd) (hs : 0 < s) (hn : s ≤ b.data.shape.getD b.cursorDim 0) (hfit : m ≤ s) :
    ∃ b', b.updateBuffer upd (-(s : Int)) = .ok b' ∧
      b'.data.shape = b.data.shape ∧ b'.name = b.name ∧ b'.cursor = b.cursor ∧ b'.cursorDim = b.cursorDim ∧
      ∀ idx, InBounds idx b.data.shape →
        b'.data.get idx =
          if b.data.shape.getD b.cursorDim 0 ≤ idx.getD b.cursorDim 0 + s ∧ idx.getD b.cursorDim 0 + s < b.data.shape.getD b.cursorDim 0 + m
          then upd.get (idx.set b.cursorDim (idx.getD b.cursorDim 0 + s - b.data.shape.getD b.cursorDim 0))
          else b.data.get idx := by
  obtain ⟨r, h1, h2, h3⟩ := dynUpdate_slab b.data upd (-(s : Int)) b.cursorDim m hdim hblock (by omega)
  rw [clampStart_neg s _ m hs hn hfit] at h3
  refine ⟨{ b with data := r }, by unfold Buffer.updateBuffer; rw [h1], h2, rfl, rfl, rfl, fun idx hi => ?_⟩
  rw [h3 idx hi]
  generalize b.data.shape.getD b.cursorDim 0 = n at hn ⊢
  generalize idx.getD b.cursorDim 0 = j
  by_cases hc : n ≤ j + s ∧ j + s < n + m
  · rw [if_pos hc, if_pos ⟨by omega, by omega⟩, show j + s - n = j - (n - s) by omega]
  · rw [if_neg hc, if_neg (by omega)]

/-- C01 (fresh buffer). A new buffer has the requested shape, reads `-inf` everywhere and its cursor is 0. -/
theorem C01_fresh {F : Type} [BufNum F] (name : String) (shape : List Nat) (dim : Nat) (idx : List Nat) :
    (Buffer.new name shape dim : Buffer F).data.shape = shape ∧
    (Buffer.new name shape dim : Buffer F).data.get idx = BufNum.negInf ∧
    (Buffer.new name shape dim : Buffer F).cursor = 0 ∧
    (Buffer.new name shape dim : Buffer F).cursorDim = dim := ⟨rfl, rfl, rfl, rfl⟩

/-- C01 (errors). A write whose rank or extent does not fit raises and returns no buffer. -/
theorem C01_reject {F : Type} (b : Buffer F) (upd : NDArr F) (start : Int)
    (hbad : ¬ ShapeLE upd.shape b.data.shape) :
    ∃ e, b.updateBuffer upd start = .error e := by
  unfold Buffer.updateBuffer dynUpdateSliceInDim
  by_cases h : b.cursorDim < b.data.shape.length <;> simp [h, hbad]

instance : BufNum Nat := ⟨1000000, fun _ => true, fun b => if b then 1 else 0⟩

/-- Non-vacuity of C01: a `(2, 5, 3)` buffer, writing 2 steps at step 3 for both chains. -/
example : let b : Buffer Nat := Buffer.new "positions" [2, 5, 3] 1
    let upd : NDArr Nat := ⟨[2, 2, 3], fun i => i.sum⟩
    b.cursorDim < b.data.shape.length ∧ IsBlock b.data.shape b.cursorDim 2 upd ∧
    3 + 2 ≤ b.data.shape.getD b.cursorDim 0 := by
  intro b upd; exact ⟨by decide, rfl, by decide⟩

/-- Write the blocks one after the other, each where the previous one ended (what a step strategy does with its
`current_position`, take_steps.py:140-143). -/
def appendAll {F : Type} (b : Buffer F) : Nat → List (Nat × NDArr F) → Except Err (Buffer F)
  | _, [] => .ok b
  | s, (m, u) :: rest =>
    match b.updateBuffer u s with
    | .ok b' => appendAll b' (s + m) rest
    | .error e => .error e

theorem appendAll_spec {F : Type} (blocks : List (Nat × NDArr F)) :
    ∀ (b : Buffer F) (s : Nat), b.cursorDim < b.data.shape.length →
    (∀ p ∈ blocks, IsBlock b.data.shape b.cursorDim p.1 p.2) →
    s + totalLen blocks ≤ b.data.shape.getD b.cursorDim 0 →
    ∃ b', appendAll b s blocks = .ok b' ∧ b'.data.shape = b.data.shape ∧ b'.cursorDim = b.cursorDim ∧
      ∀ idx, InBounds idx b.data.shape →
        b'.data.get idx =
          if s ≤ idx.getD b.cursorDim 0 then
            (concatGet b.cursorDim blocks (idx.set b.cursorDim (idx.getD b.cursorDim 0 - s))).getD (b.data.get idx)
          else b.data.get idx := by
  induction blocks with
  | nil =>
    intro b s _ _ _
    refine ⟨b, rfl, rfl, rfl, ?_⟩
    intro idx _
    simp [concatGet]
  | cons p rest ih =>
    obtain ⟨m, u⟩ := p
    intro b s hd hb hfit
    simp only [totalLen, List.map_cons, List.sum_cons] at hfit
    have hbl := hb (m, u) (by simp)
    obtain ⟨b1, e1, s1, -, -, c1, g1⟩ := C01_update_window b u s m hd hbl (by omega)
    obtain ⟨b2, e2, s2, c2, g2⟩ := ih b1 (s + m) (by rw [s1, c1]; exact hd)
      (by intro p hp; rw [s1, c1]; exact hb p (by simp [hp]))
      (by rw [s1, c1]; simp only [totalLen]; omega)
    refine ⟨b2, ?_, by rw [s2, s1], by rw [c2, c1], ?_⟩
    · simp only [appendAll, e1]; exact e2
    · intro idx hi
      rw [g2 idx (by rw [s1]; exact hi), g1 idx hi, c1]
      have hlen : b.cursorDim < idx.length := by rw [hi.length_eq]; exact hd
      generalize hv : idx.getD b.cursorDim 0 = v
      by_cases h1 : s ≤ v
      · simp only [h1, if_true, true_and]
        simp only [concatGet, getD_set_self hlen]
        by_cases h2 : v < s + m
        · have h3 : ¬ (s + m ≤ v) := by omega
          have h4 : v - s < m := by omega
          simp [h2, h3, h4]
        · have h3 : s + m ≤ v := by omega
          have h4 : ¬ (v - s < m) := by omega
          simp only [h2, h3, h4, if_true, if_false, List.set_set]
          have : v - (s + m) = v - s - m := by omega
          rw [this]
      · have h3 : ¬ (s + m ≤ v) := by omega
        simp [h1, h3]

/-- C02. Appending blocks to a fresh buffer, each after the previous one, gives the concatenation of the blocks
followed by untouched `-inf` rows, as long as the total fits. -/
theorem C02_append_log {F : Type} [BufNum F] (name : String) (shape : List Nat) (dim : Nat)
    (blocks : List (Nat × NDArr F)) (hd : dim < shape.length)
    (hb : ∀ p ∈ blocks, IsBlock shape dim p.1 p.2)
    (hfit : totalLen blocks ≤ shape.getD dim 0) :
    ∃ b', appendAll (Buffer.new name shape dim : Buffer F) 0 blocks = .ok b' ∧ b'.data.shape = shape ∧
      ∀ idx, InBounds idx shape →
        b'.data.get idx = (concatGet dim blocks idx).getD BufNum.negInf := by
  obtain ⟨b', h1, h2, -, h4⟩ := appendAll_spec blocks (Buffer.new name shape dim : Buffer F) 0 hd hb
    (by simpa [Buffer.new] using hfit)
  refine ⟨b', h1, h2, ?_⟩
  intro idx hi
  rw [h4 idx hi]
  have hlen : dim < idx.length := by rw [hi.length_eq]; exact hd
  have : idx.set dim (idx.getD dim 0 - 0) = idx := by
    apply List.ext_getElem (by simp)
    intro i h _
    by_cases e : dim = i
    · subst e; simp [hlen]
    · simp [e]
  simp only [Buffer.new] at this ⊢
  rw [this]
  simp

/-- What the concatenation means: block `j`, row `r` is read at position `(lengths before j) + r`, and reading
past the total length finds nothing. -/
theorem concatGet_eq {α : Type} (dim : Nat) (pre : List (Nat × NDArr α)) (m : Nat) (u : NDArr α)
    (post : List (Nat × NDArr α)) : ∀ (idx : List Nat), dim < idx.length →
    totalLen pre ≤ idx.getD dim 0 → idx.getD dim 0 < totalLen pre + m →
    concatGet dim (pre ++ (m, u) :: post) idx = some (u.get (idx.set dim (idx.getD dim 0 - totalLen pre))) := by
  induction pre with
  | nil =>
    intro idx hl h1 h2
    simp only [totalLen, List.map_nil, List.sum_nil] at *
    have : idx.set dim (idx.getD dim 0 - 0) = idx := by
      apply List.ext_getElem (by simp)
      intro i h _
      by_cases e : dim = i
      · subst e; simp [hl]
      · simp [e]
    rw [this]
    have h2' : idx.getD dim 0 < m := by omega
    simp only [List.nil_append, concatGet, h2', if_true]
  | cons p pre ih =>
    obtain ⟨m0, u0⟩ := p
    intro idx hl h1 h2
    simp only [totalLen, List.map_cons, List.sum_cons] at h1 h2
    simp only [List.cons_append, concatGet]
    have h3 : ¬ (idx.getD dim 0 < m0) := by omega
    rw [if_neg h3]
    rw [ih _ (by simpa using hl) (by rw [getD_set_self hl]; simp only [totalLen]; omega)
      (by rw [getD_set_self hl]; simp only [totalLen]; omega)]
    rw [getD_set_self hl, List.set_set]
    simp only [totalLen, List.map_cons, List.sum_cons]
    congr 3
    omega

theorem concatGet_none {α : Type} (dim : Nat) (blocks : List (Nat × NDArr α)) : ∀ (idx : List Nat),
    dim < idx.length → totalLen blocks ≤ idx.getD dim 0 → concatGet dim blocks idx = none := by
  induction blocks with
  | nil => intros; rfl
  | cons p rest ih =>
    obtain ⟨m, u⟩ := p
    intro idx hl h
    simp only [totalLen, List.map_cons, List.sum_cons] at h
    have h3 : ¬ (idx.getD dim 0 < m) := by omega
    simp only [concatGet, h3, if_false]
    exact ih _ (by simpa using hl) (by rw [getD_set_self hl]; simp only [totalLen]; omega)

/-- Non-vacuity of C02: two blocks of lengths 2 and 3 appended to a `(2, 6)` buffer with cursor axis 1. -/
example : let blocks : List (Nat × NDArr Nat) := [(2, ⟨[2, 2], fun i => i.sum⟩), (3, ⟨[2, 3], fun _ => 7⟩)]
    1 < [2, 6].length ∧ (∀ p ∈ blocks, IsBlock [2, 6] 1 p.1 p.2) ∧ totalLen blocks ≤ [2, 6].getD 1 0 := by
  refine ⟨by decide, ?_, by decide⟩
  intro p hp
  simp only [List.mem_cons, List.not_mem_nil, or_false] at hp
  rcases hp with rfl | rfl <;> rfl

/-- C03 is FALSE of the code: a write that does not fit is silently moved back (XLA clamps the start) and
destroys rows recorded earlier.  Witness: a buffer of 3 rows, block of 2 rows at row 2 overwrites row 1. -/
theorem C03_overflow_destroys :
    ¬ ∀ (b : Buffer Nat) (upd : NDArr Nat) (start m : Nat) (b' : Buffer Nat),
      b.cursorDim < b.data.shape.length → IsBlock b.data.shape b.cursorDim m upd →
      b.updateBuffer upd start = .ok b' →
      ∀ idx, InBounds idx b.data.shape → idx.getD b.cursorDim 0 < start → b'.data.get idx = b.data.get idx := by
  intro h
  let b : Buffer Nat := { name := "b", data := ⟨[3], fun i => i.getD 0 0⟩, cursor := 0, cursorDim := 0 }
  have := h b ⟨[2], fun _ => 9⟩ 2 2 _ (by decide) rfl rfl [1] (by decide) (by decide)
  revert this
  decide

/-- C03, what does hold (partial): an overflowing write (of a block that fits the buffer at all) behaves exactly as
a write at the last position where it fits; so the rows before `n - m` survive, and if the write fits then no earlier
row is touched. Missing for the full property: rows in `[n-m, start)` are destroyed. -/
theorem C03_clamp_partial {F : Type} (b : Buffer F) (upd : NDArr F) (start m : Nat)
    (hdim : b.cursorDim < b.data.shape.length)
    (hblock : IsBlock b.data.shape b.cursorDim m upd)
    (hm : m ≤ b.data.shape.getD b.cursorDim 0) :
    (b.data.shape.getD b.cursorDim 0 < start + m →
      b.updateBuffer upd start = b.updateBuffer upd ((b.data.shape.getD b.cursorDim 0 - m : Nat))) ∧
    ∃ b', b.updateBuffer upd start = .ok b' ∧
      ∀ idx, InBounds idx b.data.shape →
        idx.getD b.cursorDim 0 < min start (b.data.shape.getD b.cursorDim 0 - m) →
        b'.data.get idx = b.data.get idx := by
  have hget : upd.shape.getD b.cursorDim 0 = m := by
    rw [hblock]; exact getD_set_self hdim
  constructor
  · intro hov
    unfold Buffer.updateBuffer dynUpdateSliceInDim
    rw [hget, clampStart_overflow start _ m hm hov, clampStart_fits _ _ m (by omega)]
  · obtain ⟨r, h1, h2, h3⟩ := dynUpdate_slab b.data upd start b.cursorDim m hdim hblock hm
    refine ⟨{ b with data := r }, ?_, ?_⟩
    · unfold Buffer.updateBuffer; rw [h1]
    · intro idx hi hlt
      rw [h3 idx hi]
      have : ¬ (clampStart (start : Int) (b.data.shape.getD b.cursorDim 0) m ≤ idx.getD b.cursorDim 0) := by
        by_cases hov : b.data.shape.getD b.cursorDim 0 < start + m
        · rw [clampStart_overflow start _ m hm hov]; omega
        · rw [clampStart_fits start _ m (by omega)]; omega
      simp only [this, false_and, if_false]

theorem ends_npz (p : String) : ".npz".toList.isSuffixOf p.toList = true ↔ ∃ s, p = s ++ ".npz" := by
  rw [List.isSuffixOf_iff_suffix]
  constructor
  · rintro ⟨t, ht⟩
    exact ⟨String.ofList t, String.toList_injective (by rw [String.toList_append, String.toList_ofList, ht])⟩
  · rintro ⟨s, rfl⟩
    exact ⟨s.toList, (String.toList_append ..).symm⟩

theorem archive_path {p file : String} (h : ArchiveOf p file) : file = npzPath p := by
  rcases h with ⟨h, rfl⟩ | ⟨h, rfl⟩ <;> rw [← ends_npz] at h <;> simp only [npzPath, h, if_true, if_false, Bool.false_eq_true]

theorem archiveOf_npzPath (p : String) : ArchiveOf p (npzPath p) := by
  by_cases h : ".npz".toList.isSuffixOf p.toList = true
  · exact Or.inl ⟨(ends_npz p).1 h, by simp only [npzPath, h, if_true]⟩
  · exact Or.inr ⟨fun h' => h ((ends_npz p).2 h'), by simp only [npzPath, h, if_false, Bool.false_eq_true]⟩

/-- C04, what does hold (partial): name and contents survive a save/load round trip, if the file is given with its suffix.  Missing: cursor and cursor
dimension are reset to 0 (see `C04_roundtrip_fails`). -/
theorem C04_roundtrip_partial {F : Type} [BufNum F] (b : Buffer F) (path file : String) (hfile : ArchiveOf (path ++ b.name) file) (fs : Files F) :
    ∃ b', Buffer.load (b.save path fs) file = .ok b' ∧
      b'.name = b.name ∧ b'.data = b.data ∧ b'.cursor = 0 ∧ b'.cursorDim = 0 := by
  rw [archive_path hfile]
  simp [Buffer.load, Buffer.save, savez, readEntry, Buffer.new]

/-- C04, consequence for buffers whose cursor and cursor dimension are 0 (e.g. a fresh loss buffer): exact round
trip. -/
theorem C04_roundtrip_default {F : Type} [BufNum F] (b : Buffer F) (path file : String) (hfile : ArchiveOf (path ++ b.name) file) (fs : Files F)
    (hc : b.cursor = 0) (hd : b.cursorDim = 0) :
    Buffer.load (b.save path fs) file = .ok b := by
  obtain ⟨b', h, h1, h2, h3, h4⟩ := C04_roundtrip_partial b path file hfile fs
  rw [h]
  cases b; cases b'
  simp_all

/-- C04: saving writes one file only, and the load needs the suffix: with the very string that was saved to, loading finds nothing new. -/
theorem C04_other_files {F : Type} [BufNum F] (b : Buffer F) (path file : String) (hfile : ArchiveOf (path ++ b.name) file) (fs : Files F) :
    (∀ q, q ≠ file → Buffer.load (b.save path fs) q = Buffer.load fs q) ∧
    ((¬ ∃ s, path ++ b.name = s ++ ".npz") → Buffer.load (b.save path fs) (path ++ b.name) = Buffer.load fs (path ++ b.name)) := by
  have h1 : ∀ q, q ≠ file → Buffer.load (b.save path fs) q = Buffer.load fs q := by
    intro q hq
    rw [archive_path hfile] at hq
    simp [Buffer.load, Buffer.save, savez, hq]
  refine ⟨h1, fun he => h1 _ ?_⟩
  rcases hfile with ⟨h, -⟩ | ⟨-, rfl⟩
  · exact absurd h he
  · intro e
    have := congrArg String.length e
    simp [String.length_append] at this

/-- Non-vacuity of C04_other_files: saving `chains` writes `chains.npz`; another archive `other.npz` and the plain name `chains` are as before. -/
example {F : Type} [BufNum F] (b : Buffer F) (hb : b.name = "chains") (fs : Files F) :
    Buffer.load (b.save "" fs) "other.npz" = Buffer.load fs "other.npz" ∧ Buffer.load (b.save "" fs) "chains" = Buffer.load fs "chains" := by
  have ha : ArchiveOf ("" ++ b.name) "chains.npz" := by rw [hb]; exact archiveOf_npzPath "chains"
  exact ⟨(C04_other_files b "" _ ha fs).1 _ (by decide), (C04_other_files b "" _ ha fs).1 _ (by decide)⟩

/-- C04 is FALSE of the code: saving and loading a position buffer (cursor dimension 1) gives a buffer on which the
same `update_buffer` call writes elsewhere. -/
theorem C04_roundtrip_fails :
    ∃ (b b' : Buffer Nat) (fs : Files Nat) (upd : NDArr Nat) (c c' : Buffer Nat) (idx : List Nat),
      Buffer.load (b.save "out/" fs) "out/p.npz" = .ok b' ∧ b.name = "p" ∧
      b.updateBuffer upd 1 = .ok c ∧ b'.updateBuffer upd 1 = .ok c' ∧
      InBounds idx b.data.shape ∧ c.data.get idx ≠ c'.data.get idx ∧ b'.cursorDim ≠ b.cursorDim ∧
      b'.cursor ≠ b.cursor := by
  let b : Buffer Nat := { name := "p", data := ⟨[2, 3], fun _ => 0⟩, cursor := 4, cursorDim := 1 }
  let upd : NDArr Nat := ⟨[2, 1], fun _ => 5⟩
  refine ⟨b, { b with cursor := 0, cursorDim := 0 }, fun _ => none, upd, _, _, [0, 1], ?_, rfl, rfl, rfl, by decide, ?_,
    by decide, by decide⟩
  · have e : npzPath "out/p" = "out/p.npz" := by decide
    simp [Buffer.load, Buffer.save, savez, readEntry, Buffer.new, b, e]
  · decide

/-- The dictionary after an update, as a specification: a key holds the value paired with its *last* occurrence
in the key list (pairs beyond the shorter list are ignored), other keys keep their value. -/
def lastPaired (keys : List String) (values : List SVal) (k : String) : Option SVal :=
  ((keys.zip values).reverse.find? (fun kv => kv.1 = k)).map (·.2)

/-- C05. `State.update` is per-key last-write-wins and touches no other key nor the name. -/
theorem C05_state_update (s : State) (keys : List String) (values : List SVal) (k : String) :
    (s.update keys values).data k = (lastPaired keys values k).or (s.data k) ∧
    (s.update keys values).name = s.name := by
  refine ⟨?_, rfl⟩
  unfold State.update lastPaired
  dsimp only
  generalize keys.zip values = kvs
  induction kvs generalizing s with
  | nil => simp
  | cons p rest ih =>
    simp only [List.foldl_cons, List.reverse_cons, List.find?_append]
    rw [ih { s with data := dictSet s.data p.1 p.2 }]
    cases h : List.find? (fun kv => decide (kv.1 = k)) rest.reverse with
    | some q => simp
    | none =>
      by_cases e : p.1 = k
      · subst e; simp [dictSet]
      · have e' : ¬ k = p.1 := fun h => e h.symm
        simp [dictSet, e, e']

/-- Keys not listed are unchanged. -/
theorem C05_other_keys (s : State) (keys : List String) (values : List SVal) (k : String) (hk : k ∉ keys) :
    (s.update keys values).data k = s.data k := by
  rw [(C05_state_update s keys values k).1]
  have : lastPaired keys values k = none := by
    unfold lastPaired
    simp only [Option.map_eq_none_iff, List.find?_eq_none, decide_eq_true_eq]
    intro x hx e
    exact hk (e ▸ (List.of_mem_zip (List.mem_reverse.1 hx)).1)
  simp [this]

/-- Every listed key that has a partner holds one of the paired values afterwards; with distinct keys, its own. -/
theorem C05_distinct_keys (s : State) (keys : List String) (values : List SVal) (hnd : keys.Nodup) (i : Nat)
    (hk : i < keys.length) (hv : i < values.length) :
    (s.update keys values).data keys[i] = some values[i] := by
  rw [(C05_state_update s keys values _).1]
  have : lastPaired keys values keys[i] = some values[i] := by
    unfold lastPaired
    have hmem : (keys[i], values[i]) ∈ (keys.zip values).reverse := by
      rw [List.mem_reverse, List.mem_iff_getElem]
      exact ⟨i, by simp; omega, by simp⟩
    cases h : List.find? (fun kv => decide (kv.1 = keys[i])) (keys.zip values).reverse with
    | none =>
      rw [List.find?_eq_none] at h
      exact (h _ hmem (by simp)).elim
    | some q =>
      have h1 := List.find?_some h
      have h2 := List.mem_of_find?_eq_some h
      rw [List.mem_reverse, List.mem_iff_getElem] at h2
      obtain ⟨j, hj, rfl⟩ := h2
      simp at h1 hj
      have : j = i := (List.getElem_inj hnd).1 h1
      subst this
      simp
  simp [this]

/-- Non-vacuity of C05: duplicated key and surplus key. -/
example : ((State.new (fun _ => none)).update ["a", "b", "a", "c"] [.int 1, .bool true, .int 2]).data "a"
    = some (.int 2) := by decide

/-- C06 is FALSE of the code: loading a saved `State` always raises (`np.load` without `allow_pickle` refuses the
pickled dictionary), whatever the state. -/
theorem C06_load_always_raises {F : Type} (s : State) (path file : String) (hfile : ArchiveOf (path ++ s.name) file) (fs : Files F) :
    State.load (s.save path fs) file = .error .valueError := by
  rw [archive_path hfile]
  simp [State.load, State.save, savez, readEntry]

/-- C06, what survives: the file that `save_resource` leaves holds the name under "name" and the dictionary under "data"
(so the content can be recovered by hand with `allow_pickle=True`), and no other file changes. -/
theorem C06_saved_partial {F : Type} (s : State) (path file : String) (hfile : ArchiveOf (path ++ s.name) file) (fs : Files F) :
    s.save path fs file = some { name := .string s.name, data := .object s.data } ∧
    ∀ q, q ≠ file → s.save path fs q = fs q := by
  rw [archive_path hfile]
  refine ⟨by simp [State.save, savez], fun q hq => by simp [State.save, savez, hq]⟩

/-- C06: and if a load ever succeeds, the dictionary slot of the result holds the stored *name* and the name slot the
stored *data* (the constructor arguments are swapped).  What does hold (partial): nothing but failing loudly; no
`State` object with the same name and data is ever produced. -/
theorem C06_swapped_partial {F : Type} (fs : Files F) (path : String) (z : Npz F) (r : LoadedState F)
    (hf : fs path = some z) (hl : State.load fs path = .ok r) : r.data = z.name ∧ r.name = z.data := by
  unfold State.load at hl
  rw [hf] at hl
  dsimp only at hl
  cases hn : z.name <;> cases hd : z.data <;> simp [hn, hd, readEntry] at hl <;> simp [← hl]

end FlowMC
