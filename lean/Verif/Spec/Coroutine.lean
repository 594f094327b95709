import Verif.Model.Coroutine
import Verif.Spec.Objects

/-!
# Calls on the DRM of orthogonal sketches
-/

namespace TTS

variable {K : Type*}

/-- The cores added by a sequence of calls. -/
def OrthOp.added [Zero K] (ops : List (OrthOp K)) : List (ND K) :=
  ops.filterMap fun
    | .add C => some C
    | .next => none

/-- The number of calls of `next`. -/
def OrthOp.nexts [Zero K] (ops : List (OrthOp K)) : ℕ :=
  ops.countP fun
    | .add _ => false
    | .next => true

/-- Before the `k`-th call of `next` at least `k` cores have been added. -/
def OrthOp.Ahead [Zero K] (ops : List (OrthOp K)) : Prop :=
  ∀ pre suf, ops = pre ++ OrthOp.next :: suf → OrthOp.nexts pre < (OrthOp.added pre).length

mutual
/-- All nested sums declare a shape with `d` modes. -/
def Obj.Modes [Zero K] (d : ℕ) : Obj K → Prop
  | .atom _ => True
  | .sum sh ts => sh.length = d ∧ Obj.ModesL d ts

/-- The same for lists. -/
def Obj.ModesL [Zero K] (d : ℕ) : List (Obj K) → Prop
  | [] => True
  | t :: ts => t.Modes d ∧ Obj.ModesL d ts
end

/-- What asking for a contraction before its core exists raises, once the generator runs.  The method for sparse tensors
iterates over the cores and just ends; the others index the list of cores.  In a lazy sum the first basic tensor decides, and a
generator that just ends inside the generator expression of a sum is a `RuntimeError`. -/
def Obj.earlyError [Zero K] : Obj K → PyErr
  | .atom (.leaf (.sparse _)) => .stopIteration
  | .atom _ => .indexError
  | .sum _ ts => match (Obj.leavesL ts).head? with
    | some (.sparse _) => .runtimeError
    | _ => .indexError

end TTS
