import Verif.Model.JavaCatalog
/-! The classes of a class path, in the order of the class path. -/
namespace Verif.JavaCatalog
open Verif.CheckReport (Text Path)

/-- Every class of every artifact, as a declaration, in order. -/
def declarations : List Artifact → List Product → List Declaration
  | a :: as, p :: ps => p.archive.classes.map (fun x => ⟨x.cls, a.path, a.fingerprint, x.entry, x.release⟩) ++ declarations as ps
  | _, _ => []

/-- The first declaration of a name. -/
def firstOf (ds : List Declaration) (name : Text) : Option Declaration := ds.find? (fun d => decide (d.cls.name = name))

/-- The later declarations, each with the first one of its name; `seen` are those before. -/
def laterOf (seen : List Declaration) : List Declaration → List Duplicate
  | [] => []
  | d :: ds =>
    match firstOf seen d.cls.name with
    | some w => ⟨d.cls.name, w.path, d.path⟩ :: laterOf (seen ++ [d]) ds
    | none => laterOf (seen ++ [d]) ds

/-- Each product belongs to its artifact. -/
def Matches (as : List Artifact) (ps : List Product) : Prop :=
  as.length = ps.length ∧ ∀ x ∈ as.zip ps, x.2.key.fingerprint = x.1.fingerprint ∧ x.2.key.kind = x.1.kind

end Verif.JavaCatalog
