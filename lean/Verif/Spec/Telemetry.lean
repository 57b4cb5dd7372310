import Verif.Model.Telemetry
/-! What there is to count. -/
namespace Verif.Telemetry
open Verif.Types (Ty)

mutual
/-- A type and all types in it. -/
def inside : Ty → List Ty
  | .shape fs r o z d => .shape fs r o z d :: (insideFields fs ++ insideRest r)
  | .union ms => .union ms :: insideAll ms
  | .array ts => .array ts :: insideAll ts
  | .hash ks vs => .hash ks vs :: (insideAll ks ++ insideAll vs)
  | .cls n => [.cls n]
  | .mod n => [.mod n]
  | .clsRef n => [.clsRef n]
  | .modRef n => [.modRef n]
  | .lit v => [.lit v]
  | .unknown => [.unknown]
def insideAll : List Ty → List Ty
  | [] => []
  | x :: xs => inside x ++ insideAll xs
def insideFields : List (Verif.Types.Lit × Bool × Ty) → List Ty
  | [] => []
  | (_, _, x) :: xs => inside x ++ insideFields xs
def insideRest : Option (Ty × Ty) → List Ty
  | none => []
  | some (k, v) => inside k ++ inside v
end

/-- The number of shapes directly in a union, when there are several. -/
def width : Ty → Nat
  | .union ms => if 2 ≤ ms.countP isShape then ms.countP isShape else 0
  | _ => 0

def shapeFields : Ty → Nat
  | .shape fs _ _ _ _ => fs.length
  | _ => 0

def shapeDepth : Ty → Nat
  | .shape _ _ _ _ d => d
  | _ => 0

/-- The sum of a number over a list. -/
def sumOf {α : Type} (g : α → Nat) (l : List α) : Nat := (l.map g).sum

/-- The largest number over a list. -/
def most {α : Type} (g : α → Nat) (l : List α) : Nat := l.foldr (fun x n => max (g x) n) 0

/-- Every return is proven or unknown, and every unknown one has a reason. -/
def Balanced (t : Telemetry) : Prop := t.sum .proven + t.sum .unknown = t.sum .outcomes ∧ sumOf t.reasons (List.finRange 25) = t.sum .unknown

/-- What the collector gives for a file: its methods are counted once each. -/
def Counted (f : File) : Prop := f.telemetry.sum .outcomes = (methodsOf f.equations).length ∧ Balanced f.telemetry

/-- The work of the solver counts no returns. -/
def Quiet (s : Solver) : Prop := ∀ es, (s.work es).sum .outcomes = 0 ∧ (s.work es).sum .proven = 0 ∧ (s.work es).sum .unknown = 0 ∧ ∀ r, (s.work es).reasons r = 0

/-- The engines that can be reached; `k` says whether constants are solved. -/
inductive Reach (s : Solver) (k : Bool) : Engine → Prop where
  | start : Reach s k ⟨[], false, false⟩
  | replace (e : Engine) (f : File) : Reach s k e → Counted f → Reach s k (replace e f)
  | resolve (e : Engine) : Reach s k e → Reach s k (resolve s e)
  | constants (e : Engine) (id : Nat) (types : List (Option Nat × Ty)) (reads : List Ty) : k = true → Reach s k e → Reach s k (constants e id types reads)

end Verif.Telemetry
