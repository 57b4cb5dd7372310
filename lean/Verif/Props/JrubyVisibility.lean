import Verif.Model.JrubySignatures
/-!
C84: the visibility that a Java member gets in Ruby.
-/
namespace Verif.JrubySignatures

/-- **C84 (visibility).** A member is public or protected in Ruby exactly when it is in Java; a member for the package is private. -/
theorem c84_visibility (v : Vis) : (keyword v = .public_ ↔ v = .public_) ∧ (keyword v = .protected_ ↔ v = .protected_) ∧
    (keyword v = .private_ ↔ v = .private_ ∨ v = .package) := by
  cases v <;> simp [keyword]

end Verif.JrubySignatures
