/-!
Model of `normalize_navigation_key` (`/repo/src/navigation_demand.rs` L9-14), of the assertion its results must pass in `request`
(L130-135) and `claim_if_requested` (L211-216), and of `normalized_definition_navigation_keys` (`/repo/src/query/definition.rs` L216-231).

The Unicode tables are parameters: `alnum` is `char::is_alphanumeric`, `lower` is `char::to_lowercase`.
-/
namespace Verif.NavKey

variable (alnum : Char → Bool) (lower : Char → List Char)

/-- `normalize_navigation_key`. -/
def normalize (name : List Char) : List Char := (name.filter alnum).flatMap lower

/-- The condition asserted by `request` and `claim_if_requested`. -/
def accepted (key : List Char) : Bool := !key.isEmpty && key.all alnum

/-- One component of `normalized_definition_navigation_keys`: the key sent to `request`, if any. -/
def definitionKey (name : List Char) : Option (List Char) :=
  let key := normalize alnum lower name
  if key.isEmpty then none else some key

end Verif.NavKey
