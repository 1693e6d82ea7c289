import Verif.Model.Resource
/-
Where numpy puts archives.  Nothing here models code of /repo.
-/
namespace FlowMC.Spec

/-- The file that `np.savez(p, …)` writes: `p` itself if it ends in `.npz`, otherwise `p.npz`. -/
def ArchiveOf (p file : String) : Prop := ((∃ s, p = s ++ ".npz") ∧ file = p) ∨ ((¬ ∃ s, p = s ++ ".npz") ∧ file = p ++ ".npz")

end FlowMC.Spec
