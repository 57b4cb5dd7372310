import Verif.Model.SignatureHelp
/-!
What signature help should show.
-/
namespace Verif.SignatureHelp

/-- The calls of a document in the order of the visit. -/
def calls : Syn → List Call
  | .nil => []
  | .call c kids next => c :: calls kids ++ calls next
  | .other kids next => calls kids ++ calls next

/-- The cursor is behind the name of the call, not behind its end, and not in its block. -/
def Around (off : Nat) (c : Call) : Prop :=
  ∃ msg, c.message = some msg ∧ msg.2 ≤ off ∧ off ≤ c.stop ∧ ∀ b, c.block = some b → off < b

/-- The places of the commas behind the arguments; the last argument may have one. -/
inductive Laid : List Arg → List Nat → Prop
  | last (a : Arg) : Laid [a] []
  | trailing (a : Arg) (s : Nat) : a.stop ≤ s → Laid [a] [s]
  | cons {a b : Arg} {as : List Arg} {s : Nat} {ss : List Nat} : a.stop ≤ s → s < b.start → b.start ≤ b.stop →
      Laid (b :: as) ss → Laid (a :: b :: as) (s :: ss)

/-- The commas between two arguments stand directly behind the first. -/
def Tight (as : List Arg) (ss : List Nat) : Prop := ∀ i, i + 1 < as.length → ss[i]? = as[i]?.map Arg.stop

/-- How Ruby binds argument `i` of `n` to a parameter of `r` required, `o` optional, a rest and `p` further required ones. -/
def binds (r o : Nat) (rest : Bool) (p n i : Nat) : Option Nat :=
  if n < r + p then none
  else
    let filled := min o (n - r - p)
    let extra := n - r - p - filled
    if i < r then some i
    else if i < r + filled then some i
    else if i < r + filled + extra then (if rest then some (r + o) else none)
    else if i < n then some (r + o + (if rest then 1 else 0) + (i - (r + filled + extra)))
    else none

/-- The kinds of the parameters of a method: positional ones as above, then keywords and a block. -/
def Shape (kinds : List Kind) (r o : Nat) (rest : Bool) (p : Nat) : Prop :=
  ∃ (rs others : List Kind), kinds = List.replicate r .required ++ List.replicate o .optional_ ++ rs ++ List.replicate p .required ++ others ∧
    (if rest then ∃ k, rs = [k] ∧ (k = .rest ∨ k = .anonymousRest ∨ k = .forwarding) else rs = []) ∧
    ∀ k ∈ others, k = .requiredKeyword ∨ k = .optionalKeyword ∨ k = .keywordRest ∨ k = .anonymousKeywordRest ∨ k = .block

end Verif.SignatureHelp
