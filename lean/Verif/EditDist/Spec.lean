import Verif.EditDist.Model

/-! Independent notions used to state the properties of the edit-distance classes. -/

namespace Thot.EditDist

/-- `Script k x y c`: there is an edit script that turns `x` into `y` with total cost `c`.  A script
reads both sequences from left to right; a hit keeps an element, a substitution replaces an element
by a different one, an insertion adds an element of `y`, a deletion drops an element of `x`. -/
inductive Script {α : Type} (k : Costs) : List α → List α → Score → Prop
  | nil : Script k [] [] 0
  | hit {x y c} (a : α) : Script k x y c → Script k (a :: x) (a :: y) (k.hit + c)
  | subst {x y c} (a b : α) : a ≠ b → Script k x y c → Script k (a :: x) (b :: y) (k.subst + c)
  | ins {x y c} (b : α) : Script k x y c → Script k x (b :: y) (k.ins + c)
  | del {x y c} (a : α) : Script k x y c → Script k (a :: x) y (k.del + c)

/-- `Runs ops x y`: the sequence of operations `ops` turns `x` into `y`. -/
inductive Runs {α : Type} : List Op → List α → List α → Prop
  | nil : Runs [] [] []
  | hit {o x y} (a : α) : Runs o x y → Runs (.hit :: o) (a :: x) (a :: y)
  | subst {o x y} (a b : α) : a ≠ b → Runs o x y → Runs (.subst :: o) (a :: x) (b :: y)
  | ins {o x y} (b : α) : Runs o x y → Runs (.ins :: o) x (b :: y)
  | del {o x y} (a : α) : Runs o x y → Runs (.del :: o) (a :: x) y

/-- The cost of one operation under `k`. -/
def opCost (k : Costs) : Op → Score
  | .hit => k.hit
  | .ins => k.ins
  | .subst => k.subst
  | .del => k.del
  | _ => 0

end Thot.EditDist
