import Verif.Model.VaryBoxes

/-! # What the check boxes are for (C149) -/

namespace Spec.Vary

open PyElli PyElli.Vary

variable {R : Type}

/-- Every parameter has a box, which is ticked exactly if the parameter is varied. -/
def Agree (boxes : Dict Bool) (ps : Dict (Par R)) : Prop := ∀ p ∈ ps, Dict.get boxes p.1 = some p.2.vary

/-- Undo and Redo are pressed only while no box was changed since the start or since the last Set initial. `dirty` says that a box was
changed. -/
def Careful : Bool → List (Action R) → Prop
  | _, [] => True
  | _, .check _ _ :: as => Careful true as
  | _, .setInitial :: as => Careful false as
  | d, .undo :: as => d = false ∧ Careful d as
  | d, .redo :: as => d = false ∧ Careful d as
  | d, _ :: as => Careful d as

end Spec.Vary
