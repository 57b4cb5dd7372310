/-!
Model of the reachability analysis (crates/ruby-analysis/src/inference/control_flow.rs).

The syntax tree is Prism's, reduced to what the analysis distinguishes.  Simplifications: a missing `StatementsNode` is an empty
list of statements (the code treats both as falling through), a chain of rescue clauses is a list, a block argument `&b` belongs to
the arguments, and the body of a block is a list of statements (one `BeginNode` when the block has rescue clauses).
-/
namespace Verif.ControlFlow

/-- Prism's nodes. -/
inductive Node where
  | ret (args : List Node)
  | brk (args : List Node)
  | nxt (args : List Node)
  | redo
  | retry
  /-- `CallNode`: receiver, name, arguments and the body of the literal block -/
  | call (recv : Option Node) (name : String) (args : List Node) (block : Option (List Node))
  /-- `ConstantReadNode` -/
  | const (name : String)
  /-- `IfNode`: the third part is the `ElseNode` or the `IfNode` of an `elsif` -/
  | ifN (cond : Node) (body : List Node) (subsequent : Option Node)
  | unlessN (cond : Node) (body : List Node) (els : Option (List Node))
  /-- `CaseNode`: subject, the `when` clauses (conditions and body), else -/
  | caseN (subject : List Node) (whens : List (List Node × List Node)) (els : Option (List Node))
  /-- `CaseMatchNode`: subject, the `in` clauses (pattern with guard, and body), else -/
  | caseMatch (subject : List Node) (ins : List (List Node × List Node)) (els : Option (List Node))
  /-- `BeginNode`: body, rescue clauses (exception classes and body), else, ensure -/
  | beginN (body : List Node) (rescues : List (List Node × List Node)) (els : List Node) (ensure : List Node)
  | stmts (body : List Node)
  | elseN (body : List Node)
  /-- `WhileNode`, `UntilNode` -/
  | whileN (cond : Node) (body : List Node)
  | forN (coll : Node) (body : List Node)
  /-- a `BlockNode` that does not belong to a call: of `super` or `yield` forwarding -/
  | block (body : List Node)
  | lambda (body : List Node)
  | other (children : List Node)

/-- L32-39. -/
inductive Exit where
  | ret | raise | brk | nxt | redo | retry
  deriving DecidableEq, Repr

/-- L42-68: the bit set. -/
abbrev ExitSet := Exit → Bool

def ExitSet.empty : ExitSet := fun _ => false
def ExitSet.one (e : Exit) : ExitSet := fun x => decide (x = e)
def ExitSet.union (a b : ExitSet) : ExitSet := fun x => a x || b x

/-- L16-21 `Reachability`. -/
inductive Reach where
  | falls
  | diverges (es : ExitSet)

/-- L24-26 `is_diverges`. -/
def Reach.isDiverges : Reach → Bool
  | .falls => false
  | .diverges _ => true

/-- L226-233 `join_branches`. -/
def join : Reach → Reach → Reach
  | .diverges x, .diverges y => .diverges (x.union y)
  | _, _ => .falls

/-- L424 `kernel_terminators`. -/
def kernelTerminators : List String := ["raise", "fail", "throw", "exit", "exit!", "abort"]

/-- L420-442 `is_terminating_call`. -/
def isTerminatingCall (recv : Option Node) (name : String) : Bool :=
  match recv with
  | none => kernelTerminators.contains name
  | some (.const c) => (c == "Process" || c == "Kernel") && kernelTerminators.contains name
  | some _ => false

mutual
/-- L395-412 `BreakFinder`. -/
def hasBreak : Node → Bool
  | .brk _ => true
  | .block _ => false
  | .lambda _ => false
  | .whileN _ _ => false
  | .forN _ _ => false
  | .ret args => anyBreak args
  | .nxt args => anyBreak args
  | .redo => false
  | .retry => false
  | .call recv _ args _ => optBreak recv || anyBreak args
  | .const _ => false
  | .ifN c b s => hasBreak c || anyBreak b || optBreak s
  | .unlessN c b none => hasBreak c || anyBreak b
  | .unlessN c b (some e) => hasBreak c || anyBreak b || anyBreak e
  | .caseN s ws none => anyBreak s || pairBreak ws
  | .caseN s ws (some e) => anyBreak s || pairBreak ws || anyBreak e
  | .caseMatch s ws none => anyBreak s || pairBreak ws
  | .caseMatch s ws (some e) => anyBreak s || pairBreak ws || anyBreak e
  | .beginN b rs e n => anyBreak b || pairBreak rs || anyBreak e || anyBreak n
  | .stmts b => anyBreak b
  | .elseN b => anyBreak b
  | .other cs => anyBreak cs
def anyBreak : List Node → Bool
  | [] => false
  | n :: l => hasBreak n || anyBreak l
def optBreak : Option Node → Bool
  | none => false
  | some n => hasBreak n
def pairBreak : List (List Node × List Node) → Bool
  | [] => false
  | (a, b) :: l => anyBreak a || anyBreak b || pairBreak l
end

/-- L362-382 `is_diverging_loop`, L386-390. -/
def isDivergingLoop (recv : Option Node) (name : String) (block : Option (List Node)) : Bool :=
  match recv with
  | some _ => false
  | none =>
    if name != "loop" then false
    else match block with
      | none => false
      | some body => !anyBreak body

/-- L244-262, L279-297: the loop over the clauses, `combined` and `all_diverge` as one value. -/
def joinCase (clauses els : Reach) : Reach := join clauses els

/-- L322-330: the happy path. -/
def happy (body els : Reach) : Reach :=
  match body with
  | .diverges es => .diverges es
  | .falls => els

/-- L332-345, L351-355: the rescue clauses, when there are some, have to diverge as well. -/
def rescued (r : Reach) : Option Reach → Reach
  | none => r
  | some x => join r x

/-- L312-320: a diverging `ensure` decides. -/
def ensured (ensure rest : Reach) : Reach :=
  match ensure with
  | .diverges es => .diverges es
  | .falls => rest

mutual
/-- L71-125 `analyze`, with L200-223, L237-345. -/
def analyze : Node → Reach
  | .ret _ => .diverges (.one .ret)
  | .brk _ => .diverges (.one .brk)
  | .nxt _ => .diverges (.one .nxt)
  | .redo => .diverges (.one .redo)
  | .retry => .diverges (.one .retry)
  | .call recv name _ block =>
    if isTerminatingCall recv name then .diverges (.one .raise)
    else if isDivergingLoop recv name block then .diverges (.one .raise)
    else .falls
  | .ifN _ _ none => .falls
  | .ifN _ body (some e) => join (analyzeStatements body) (analyze e)
  | .unlessN _ _ none => .falls
  | .unlessN _ body (some e) => join (analyzeStatements body) (analyzeStatements e)
  | .caseN _ _ none => .falls
  | .caseN _ whens (some e) => joinCase (analyzeClauses whens) (analyzeStatements e)
  | .caseMatch _ _ none => .falls
  | .caseMatch _ ins (some e) => joinCase (analyzeClauses ins) (analyzeStatements e)
  | .beginN body rescues els ensure =>
    ensured (analyzeStatements ensure)
      (rescued (happy (analyzeStatements body) (analyzeStatements els)) (analyzeRescues rescues))
  | .stmts body => analyzeStatements body
  | .elseN body => analyzeStatements body
  | .const _ => .falls
  | .whileN _ _ => .falls
  | .forN _ _ => .falls
  | .block _ => .falls
  | .lambda _ => .falls
  | .other _ => .falls
/-- L130-138 `analyze_statements`. -/
def analyzeStatements : List Node → Reach
  | [] => .falls
  | [n] => analyze n
  | _ :: m :: l => analyzeStatements (m :: l)
/-- L241-253, L275-287: `Diverges` of the union when all clauses diverge. -/
def analyzeClauses : List (List Node × List Node) → Reach
  | [] => .diverges .empty
  | (_, b) :: l => join (analyzeStatements b) (analyzeClauses l)
/-- L347-356 `analyze_rescue_chain`; `none` when there is no rescue clause. -/
def analyzeRescues : List (List Node × List Node) → Option Reach
  | [] => none
  | (_, b) :: l => some (rescued (analyzeStatements b) (analyzeRescues l))
end

/-- L141-143 `diverges`. -/
def diverges (n : Node) : Bool := (analyze n).isDiverges

/-- L147-159 `exits_method`. -/
def exitsMethod (n : Node) : Bool :=
  match analyze n with
  | .diverges es => (es .ret || es .raise || es .brk || es .nxt || es .redo || es .retry) && !es .brk && !es .nxt && !es .redo && !es .retry
  | .falls => false

/-- src/capabilities/diagnostics.rs L258-283: which of the statements of one list are reported as unreachable. -/
def unreachable (seen : Bool) : List Node → List Bool
  | [] => []
  | n :: l => seen :: unreachable (seen || diverges n) l

mutual
/-- L167-197 `UnsupportedHigherOrderExitFinder`. -/
def hasExit : Node → Bool
  | .brk _ => true
  | .ret _ => true
  | .redo => true
  | .retry => true
  | .block _ => false
  | .lambda _ => false
  | .whileN c b => hasExit c || anyExit b
  | .forN c b => hasExit c || anyExit b
  | .nxt args => anyExit args
  | .call recv _ args _ => optExit recv || anyExit args
  | .const _ => false
  | .ifN c b s => hasExit c || anyExit b || optExit s
  | .unlessN c b none => hasExit c || anyExit b
  | .unlessN c b (some e) => hasExit c || anyExit b || anyExit e
  | .caseN s ws none => anyExit s || pairExit ws
  | .caseN s ws (some e) => anyExit s || pairExit ws || anyExit e
  | .caseMatch s ws none => anyExit s || pairExit ws
  | .caseMatch s ws (some e) => anyExit s || pairExit ws || anyExit e
  | .beginN b rs e n => anyExit b || pairExit rs || anyExit e || anyExit n
  | .stmts b => anyExit b
  | .elseN b => anyExit b
  | .other cs => anyExit cs
def anyExit : List Node → Bool
  | [] => false
  | n :: l => hasExit n || anyExit l
def optExit : Option Node → Bool
  | none => false
  | some n => hasExit n
def pairExit : List (List Node × List Node) → Bool
  | [] => false
  | (a, b) :: l => anyExit a || anyExit b || pairExit l
end

end Verif.ControlFlow
