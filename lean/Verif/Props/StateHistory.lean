import Verif.Props.Buffers
/-
C05 for the whole life of a state: construction and any number of updates.
-/
set_option linter.unusedSectionVars false
namespace FlowMC

/-- All single writes made by a list of calls of `update`, oldest first. -/
def Spec.writes (ups : List (List String × List SVal)) : List (String × SVal) := ups.flatMap fun u => u.1.zip u.2

/-- The value written last under a key. -/
def Spec.lastWritten (ws : List (String × SVal)) (k : String) : Option SVal := (ws.reverse.find? fun w => w.1 = k).map (·.2)

open Spec

/-- **C05 (histories).** After constructing a state from a dictionary and any number of calls of `update`, a key holds the value written last, or, if it was never written, what the dictionary
gave it; the name is the one given. -/
theorem C05_history (data : String → Option SVal) (name : String) (ups : List (List String × List SVal)) (k : String) :
    (ups.foldl (fun s u => s.update u.1 u.2) (State.new data name)).data k = (lastWritten (writes ups) k).or (data k) ∧
    (ups.foldl (fun s u => s.update u.1 u.2) (State.new data name)).name = name := by
  suffices h : ∀ s : State, (ups.foldl (fun s u => s.update u.1 u.2) s).data k = (lastWritten (writes ups) k).or (s.data k) ∧
      (ups.foldl (fun s u => s.update u.1 u.2) s).name = s.name from h (State.new data name)
  induction ups with
  | nil => intro s; simp [writes, lastWritten]
  | cons u us ih =>
    intro s
    obtain ⟨h1, h2⟩ := ih (s.update u.1 u.2)
    obtain ⟨e1, e2⟩ := C05_state_update s u.1 u.2 k
    refine ⟨?_, by rw [List.foldl_cons, h2, e2]⟩
    rw [List.foldl_cons, h1, e1]
    simp only [writes, lastWritten, lastPaired, List.flatMap_cons, List.reverse_append, List.find?_append]
    cases (List.flatMap (fun u => u.1.zip u.2) us).reverse.find? (fun w => w.1 = k) <;> simp

/-- Two updates after construction: the later one wins, an untouched key keeps its first value. -/
example (s : State) (hs : s = [(["target", "training"], [SVal.str "a", SVal.bool false]), (["target"], [SVal.str "b"])].foldl (fun (s : State) u => s.update u.1 u.2)
      (State.new (fun k => if k = "loop" then some (.str "x") else none) "state")) :
    s.data "target" = some (.str "b") ∧ s.data "training" = some (.bool false) ∧ s.data "loop" = some (.str "x") ∧ s.name = "state" := by
  subst hs
  refine ⟨?_, ?_, ?_, (C05_history _ _ _ "loop").2⟩
  · rw [(C05_history _ _ _ _).1]; simp [lastWritten, writes]
  · rw [(C05_history _ _ _ _).1]; simp [lastWritten, writes]
  · rw [(C05_history _ _ _ _).1]; simp [lastWritten, writes]

end FlowMC
