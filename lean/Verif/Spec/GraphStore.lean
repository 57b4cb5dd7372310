import Verif.Model.GraphStore
/-! What the graph should answer, from the facts present in order of arrival. -/
namespace Verif.GraphStore

/-- The facts present. -/
structure Log where
  nodes : List (Nat × Def)
  edges : List Edge
  unresolved : List Unresolved

def Log.empty : Log := ⟨[], [], []⟩

/-- Withdraw the facts of a file. -/
def Log.without (l : Log) (f : Nat) : Log :=
  { nodes := l.nodes.filter (fun x => decide (x.2.file ≠ f))
    edges := l.edges.filter (fun e => decide (e.file ≠ f))
    unresolved := l.unresolved.filter (fun u => decide (u.file ≠ f)) }

/-- The facts present after one call. -/
def logOp (l : Log) : Op → Log
  | .addNode n d => { l with nodes := l.nodes ++ [(n, d)] }
  | .addEdge e => { l with edges := l.edges ++ [e] }
  | .addUnresolved u => { l with unresolved := l.unresolved ++ [u] }
  | .takeUnresolved => { l with unresolved := [] }
  | .remove f => l.without f
  | .replace f ns es us =>
    { nodes := (l.without f).nodes ++ ns
      edges := (l.without f).edges ++ es
      unresolved := (l.without f).unresolved ++ us }

/-- The facts present after a history. -/
def logOf (ops : List Op) : Log := ops.foldl logOp Log.empty

/-- Replacement facts belong to the file they replace. -/
def Op.Valid : Op → Prop
  | .replace f ns es us => (∀ x ∈ ns, x.2.file = f) ∧ (∀ e ∈ es, e.file = f) ∧ (∀ u ∈ us, u.file = f)
  | _ => True

/-- Strict lexicographic order of edges: source, file, start, end, kind, provenance, target. -/
def edgeLt (a b : Edge) : Prop :=
  a.source < b.source ∨ a.source = b.source ∧ (a.file < b.file ∨ a.file = b.file ∧ (a.start < b.start ∨ a.start = b.start ∧
    (a.stop < b.stop ∨ a.stop = b.stop ∧ (a.kind.rank < b.kind.rank ∨ a.kind.rank = b.kind.rank ∧
      (a.prov.rank < b.prov.rank ∨ a.prov.rank = b.prov.rank ∧ a.target < b.target)))))

/-- `l` lists the edges of `es`, each as often as it occurs, in edge order. -/
def ListsEdges (l es : List Edge) : Prop := l.Perm es ∧ l.Pairwise (fun a b => edgeLt a b ∨ a = b)

/-- A superclass edge of `n` of the winning kind: explicit if there is an explicit one. -/
def Winning (es : List Edge) (n : Nat) (e : Edge) : Prop :=
  e ∈ es ∧ e.source = n ∧ e.kind = .superclass ∧
    ((∃ d ∈ es, d.source = n ∧ d.kind = .superclass ∧ d.prov = .explicit) → e.prov = .explicit)

/-- What superclass resolution should answer. -/
def SpecResolution (es : List Edge) (n : Nat) : Resolution → Prop
  | .missing => ∀ e, ¬ Winning es n e
  | .unique e => Winning es n e ∧ ∀ d, Winning es n d → d.target = e.target ∧ (edgeLt e d ∨ e = d)
  | .ambiguous => ∃ d e, Winning es n d ∧ Winning es n e ∧ d.target ≠ e.target

end Verif.GraphStore
