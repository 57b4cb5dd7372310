import Verif.Model.RequirePaths
/-!
What `require` means.
-/
namespace Verif.RequirePaths

/-- The calls of a document in the order of the visit. -/
def calls : Syn → List (Name × Receiver × List Arg)
  | .nil => []
  | .call n r as kids next => (n, r, as) :: calls kids ++ calls next
  | .other kids next => calls kids ++ calls next

/-- An argument of names between single separators, without `.` and `..`. -/
def Plain (argument : Text) : Prop := ∀ s ∈ segments argument, s ≠ [] ∧ s ≠ dot ∧ s ≠ dotdot

/-- The last name is `.rb` or ends with another spelling of `.rb`. -/
def Odd (s : Text) : Prop := s = dotRb ∨ ∃ a e, a ≠ [] ∧ s = a ++ 46 :: e ∧ e.map lower = [114, 98] ∧ e ≠ [114, 98]

/-- The file that Ruby looks for below a directory of the load path. -/
def rubyFile (argument : Text) (dir : Dir) : Dir :=
  let last := (segments argument).getLastD []
  dir ++ (segments argument).dropLast ++ [if dotRb <:+ last then last else last ++ dotRb]

/-- The first directory that has the file. -/
def rubyRequire (isFile : Dir → Bool) (argument : Text) (path : List Dir) : Option Dir := (path.map (rubyFile argument)).find? isFile

end Verif.RequirePaths
