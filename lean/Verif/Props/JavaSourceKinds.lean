import Verif.Model.JavaSource
/-!
C83, the parts that the other statements take as they are: which nodes are named, which kinds are declarations of types, and which child of a
parameter is its type, which members a body has and which lines a declaration has.
-/
namespace Verif.JavaSource

/-- **C83 (kinds of types).** Classes, interfaces, enums, records and annotations are declarations of types, nothing else. -/
theorem c83_kinds (k : Kind) : isType k = true ↔ k = .class_ ∨ k = .interface_ ∨ k = .enum_ ∨ k = .record_ ∨ k = .annotation := by
  cases k <;> simp [isType]

/-- **C83 (first type).** The type of a parameter that has no field for it is its first named child that is a type. -/
theorem c83_first (p c : Node) : firstType p = some c ↔ ∃ a b, p.kids.nodes = a ++ c :: b ∧ c.info.named = true ∧ c.info.kind = .ty ∧
    ∀ x ∈ a, x.info.named = true → x.info.kind ≠ .ty := by
  unfold firstType Node.namedKids
  rw [List.find?_filter, List.find?_eq_some_iff_append]
  simp only [decide_eq_true_eq, Bool.not_eq_true', decide_eq_false_iff_not, not_and]
  constructor
  · rintro ⟨⟨h1, h2⟩, a, b, h3, h4⟩
    exact ⟨a, b, h3, h1, h2, h4⟩
  · rintro ⟨a, b, h3, h1, h2, h4⟩
    exact ⟨⟨h1, h2⟩, a, b, h3, h4⟩

/-- **C83 (named children).** Only named nodes are parameters, declarators or modifiers. -/
theorem c83_named (n c : Node) : c ∈ n.namedKids ↔ c ∈ n.kids.nodes ∧ c.info.named = true := by
  unfold Node.namedKids
  rw [List.mem_filter]

/-- **C83 (lines).** The lines of a declaration are those of its rows, which count from 0 where lines count from 1; the last one belongs to
it. -/
theorem c83_line (line : Nat) (n : Node) : onLine line n = true ↔ ∃ row, n.info.row ≤ row ∧ row ≤ n.info.endRow ∧ line = row + 1 := by
  unfold onLine
  simp only [Bool.and_eq_true, decide_eq_true_eq]
  constructor
  · rintro ⟨h1, h2⟩
    exact ⟨line - 1, by omega, by omega, by omega⟩
  · rintro ⟨row, h1, h2, rfl⟩
    exact ⟨by omega, by omega⟩

/-- **C83 (members).** The methods of a class are looked for among the methods and constructors directly in its body, the fields among the
fields and constants of enums there, in the order of the source. -/
theorem c83_members (body : Node) :
    directKids body methodKinds =
      body.kids.nodes.filter (fun n => decide (n.info.named = true ∧ (n.info.kind = .method ∨ n.info.kind = .constructor ∨ n.info.kind = .compact))) ∧
    directKids body fieldKinds =
      body.kids.nodes.filter (fun n => decide (n.info.named = true ∧ (n.info.kind = .field ∨ n.info.kind = .enumConstant))) := by
  unfold directKids Node.namedKids methodKinds fieldKinds
  simp only [List.filter_filter]
  constructor <;> refine List.filter_congr (fun n _ => ?_) <;> cases n.info.named <;> simp

end Verif.JavaSource
