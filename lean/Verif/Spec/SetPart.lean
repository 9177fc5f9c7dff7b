import Verif.Spec.Spot
import Verif.Spec.Update
/-
A value with one part replaced.
-/
namespace GV.Spec

/-- The value with the part at the path replaced by `w`.  (Not into variants, which hold bytes.) -/
def setPart : Val → List Step → Val → Val
  | _, [], w => w
  | .arr vs, .elem i :: p, w => .arr (vs.modify i fun v => setPart v p w)
  | .just v, .content :: p, w => .just (setPart v p w)
  | .tup vs, .member i :: p, w => .tup (vs.modify i fun v => setPart v p w)
  | v, _ :: _, _ => v

end GV.Spec
