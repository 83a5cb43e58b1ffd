import Verif.Model.Store
/-! # The duplicate check of `on_block` -/
namespace Verif.Node
open Verif

theorem hasDuplicate_iff (l : List AttData) : hasDuplicate l = false ↔ l.Nodup := by
  induction l with
  | nil => exact ⟨fun _ => List.nodup_nil, fun _ => rfl⟩
  | cons d l ih =>
    rw [List.nodup_cons, ← ih]
    simp [hasDuplicate]

end Verif.Node
