import Verif.Model.ControlFlow

/-!
What running Ruby code can lead to: a relation between pieces of code and their outcomes.  It says which outcomes are possible
without looking at values: every condition may hold or not, every call may raise, a method may call its block any number of times
and swallow the exceptions of the block.  It uses the syntax tree of the model and none of its functions.

Simplifications: `retry` occurs only directly in a rescue clause (Ruby's compiler insists on it), a `break` in the collection
expression of a `for` loop ends that loop, the exceptions that no rescue clause sees (`exit!`) are ordinary exceptions, and a
`return` of a block kept as a proc happens when the block is handed over.
-/
namespace Verif.ControlFlow

/-- How code ends, if it does: normally, with an exception (`StopIteration` or another one), or by leaving. -/
inductive Out where
  | done
  | raised (stop : Bool)
  | ret | brk | nxt | redo | retry
  deriving DecidableEq

/-- What the code meets at run time: may a `StopIteration` be raised, and which methods of `Kernel` has the program redefined? -/
structure World where
  stop : Prop
  own : String → Prop

/-- Statements that leave, with the expressions evaluated before. -/
inductive Leaves : Node → List Node → Out → Prop
  | ret {args} : Leaves (.ret args) args .ret
  | brk {args} : Leaves (.brk args) args .brk
  | nxt {args} : Leaves (.nxt args) args .nxt
  | redo : Leaves .redo [] .redo
  | retry : Leaves .retry [] .retry

/-- Calls of `Kernel`'s methods that never return, on `self` or on the modules. -/
inductive NeverReturns (W : World) : Option Node → String → Prop
  | self {name} : name ∈ ["raise", "fail", "throw", "exit", "exit!", "abort"] → ¬ W.own name → NeverReturns W none name
  | module {m name} : m ∈ ["Process", "Kernel"] → name ∈ ["raise", "fail", "throw", "exit", "exit!", "abort"] →
      ¬ W.own name → NeverReturns W (some (.const m)) name

/-- Calls of `Kernel#loop` with a block. -/
def IsLoop (W : World) (recv : Option Node) (name : String) (block : Option (List Node)) (body : List Node) : Prop :=
  recv = none ∧ name = "loop" ∧ block = some body ∧ ¬ W.own "loop"

/-- Pieces of a run. -/
inductive Task where
  /-- one node -/
  | node (n : Node)
  /-- one after the other -/
  | seq (l : List Node)
  /-- the part of `begin` before `ensure` -/
  | attempt (body : List Node) (rescues : List (List Node × List Node)) (els : List Node)
  /-- `Kernel#loop` with this block -/
  | loop (body : List Node)
  /-- a method that calls this block -/
  | yields (body : List Node)
  /-- `while` and `until` -/
  | while (cond : Node) (body : List Node)

/-- Outcomes of a block after which its caller goes on. -/
def Out.continues (o : Out) : Prop := o = .done ∨ o = .nxt ∨ o = .redo

inductive Run (W : World) : Task → Out → Prop
  | nil : Run W (.seq []) .done
  | cons {n l o} : Run W (.node n) .done → Run W (.seq l) o → Run W (.seq (n :: l)) o
  | head {n l o} : Run W (.node n) o → o ≠ .done → Run W (.seq (n :: l)) o
  | leave {n args o} : Leaves n args o → Run W (.seq args) .done → Run W (.node n) o
  | leaveArg {n args o o'} : Leaves n args o' → Run W (.seq args) o → o ≠ .done → Run W (.node n) o
  -- calls
  | callRecv {recv name args block o} : Run W (.node recv) o → o ≠ .done → Run W (.node (.call (some recv) name args block)) o
  | callArg {recv name args block o} : Run W (.seq args) o → o ≠ .done → Run W (.node (.call recv name args block)) o
  | callRaise {recv name args block b} : (b = true → W.stop) → Run W (.node (.call recv name args block)) (.raised b)
  | callLoop {recv name args block body o} : IsLoop W recv name block body → Run W (.loop body) o →
      Run W (.node (.call recv name args block)) o
  | callDone {recv name args} : ¬ NeverReturns W recv name → Run W (.node (.call recv name args none)) .done
  | callBlock {recv name args body o} : ¬ NeverReturns W recv name → (¬ IsLoop W recv name (some body) body) →
      Run W (.yields body) o → Run W (.node (.call recv name args (some body))) o
  | const {c} : Run W (.node (.const c)) .done
  | constRaise {c} : Run W (.node (.const c)) (.raised false)
  -- branches
  | ifCond {c b s o} : Run W (.node c) o → o ≠ .done → Run W (.node (.ifN c b s)) o
  | ifThen {c b s o} : Run W (.node c) .done → Run W (.seq b) o → Run W (.node (.ifN c b s)) o
  | ifElse {c b e o} : Run W (.node c) .done → Run W (.node e) o → Run W (.node (.ifN c b (some e))) o
  | ifNone {c b} : Run W (.node c) .done → Run W (.node (.ifN c b none)) .done
  | unlessCond {c b s o} : Run W (.node c) o → o ≠ .done → Run W (.node (.unlessN c b s)) o
  | unlessThen {c b s o} : Run W (.node c) .done → Run W (.seq b) o → Run W (.node (.unlessN c b s)) o
  | unlessElse {c b e o} : Run W (.node c) .done → Run W (.seq e) o → Run W (.node (.unlessN c b (some e))) o
  | unlessNone {c b} : Run W (.node c) .done → Run W (.node (.unlessN c b none)) .done
  | caseSubject {s ws e o} : Run W (.seq s) o → o ≠ .done → Run W (.node (.caseN s ws e)) o
  | caseCond {s ws e o conds b} : Run W (.seq s) .done → (conds, b) ∈ ws → Run W (.seq conds) o → o ≠ .done →
      Run W (.node (.caseN s ws e)) o
  | caseWhen {s ws e o conds b} : Run W (.seq s) .done → (conds, b) ∈ ws → Run W (.seq b) o → Run W (.node (.caseN s ws e)) o
  | caseElse {s ws e o} : Run W (.seq s) .done → Run W (.seq e) o → Run W (.node (.caseN s ws (some e))) o
  | caseNone {s ws} : Run W (.seq s) .done → Run W (.node (.caseN s ws none)) .done
  | matchSubject {s ws e o} : Run W (.seq s) o → o ≠ .done → Run W (.node (.caseMatch s ws e)) o
  | matchCond {s ws e o conds b} : Run W (.seq s) .done → (conds, b) ∈ ws → Run W (.seq conds) o → o ≠ .done →
      Run W (.node (.caseMatch s ws e)) o
  | matchIn {s ws e o conds b} : Run W (.seq s) .done → (conds, b) ∈ ws → Run W (.seq b) o → Run W (.node (.caseMatch s ws e)) o
  | matchElse {s ws e o} : Run W (.seq s) .done → Run W (.seq e) o → Run W (.node (.caseMatch s ws (some e))) o
  | matchNone {s ws} : Run W (.seq s) .done → Run W (.node (.caseMatch s ws none)) (.raised false)
  -- begin
  | ensured {b rs e n o} : Run W (.attempt b rs e) o → Run W (.seq n) .done → Run W (.node (.beginN b rs e n)) o
  | ensureLeaves {b rs e n o o'} : Run W (.attempt b rs e) o' → Run W (.seq n) o → o ≠ .done → Run W (.node (.beginN b rs e n)) o
  | noError {b rs e o} : Run W (.seq b) .done → Run W (.seq e) o → Run W (.attempt b rs e) o
  | bodyLeaves {b rs e o} : Run W (.seq b) o → o ≠ .done → Run W (.attempt b rs e) o
  | rescueCond {b rs e o s conds r} : Run W (.seq b) (.raised s) → (conds, r) ∈ rs → Run W (.seq conds) o → o ≠ .done →
      Run W (.attempt b rs e) o
  | rescue {b rs e o s conds r} : Run W (.seq b) (.raised s) → (conds, r) ∈ rs → Run W (.seq r) o → o ≠ .retry →
      Run W (.attempt b rs e) o
  | retry {b rs e o s conds r} : Run W (.seq b) (.raised s) → (conds, r) ∈ rs → Run W (.seq r) .retry →
      Run W (.attempt b rs e) o → Run W (.attempt b rs e) o
  | stmts {b o} : Run W (.seq b) o → Run W (.node (.stmts b)) o
  | elseN {b o} : Run W (.seq b) o → Run W (.node (.elseN b)) o
  -- loops
  | loopAgain {b o o'} : Run W (.seq b) o' → o'.continues → Run W (.loop b) o → Run W (.loop b) o
  | loopBreak {b} : Run W (.seq b) .brk → Run W (.loop b) .done
  | loopStop {b} : Run W (.seq b) (.raised true) → Run W (.loop b) .done
  | loopRaise {b} : Run W (.seq b) (.raised false) → Run W (.loop b) (.raised false)
  | loopReturn {b} : Run W (.seq b) .ret → Run W (.loop b) .ret
  | yieldsDone {b} : Run W (.yields b) .done
  | yieldsAgain {b o o'} : Run W (.seq b) o' → o'.continues → Run W (.yields b) o → Run W (.yields b) o
  | yieldsCatch {b o s} : Run W (.seq b) (.raised s) → Run W (.yields b) o → Run W (.yields b) o
  | yieldsBreak {b} : Run W (.seq b) .brk → Run W (.yields b) .done
  | yieldsRaise {b s} : Run W (.seq b) (.raised s) → Run W (.yields b) (.raised s)
  | yieldsReturn {b} : Run W (.seq b) .ret → Run W (.yields b) .ret
  | whileN {c b o} : Run W (.while c b) o → Run W (.node (.whileN c b)) o
  | whileEnd {c b} : Run W (.node c) .done → Run W (.while c b) .done
  | whileBody {c b o o'} : Run W (.node c) .done → Run W (.seq b) o' → o'.continues → Run W (.while c b) o → Run W (.while c b) o
  | whileCondAgain {c b o o'} : Run W (.node c) o' → o' = .nxt ∨ o' = .redo → Run W (.while c b) o → Run W (.while c b) o
  | whileCondBreak {c b} : Run W (.node c) .brk → Run W (.while c b) .done
  | whileBreak {c b} : Run W (.node c) .done → Run W (.seq b) .brk → Run W (.while c b) .done
  | whileCondLeaves {c b o} : Run W (.node c) o → ¬ o.continues → o ≠ .brk → Run W (.while c b) o
  | whileLeaves {c b o} : Run W (.node c) .done → Run W (.seq b) o → ¬ o.continues → o ≠ .brk → Run W (.while c b) o
  | forCollBreak {c b} : Run W (.node c) .brk → Run W (.node (.forN c b)) .done
  | forColl {c b o} : Run W (.node c) o → o ≠ .done → o ≠ .brk → Run W (.node (.forN c b)) o
  | forBody {c b o} : Run W (.node c) .done → Run W (.yields b) o → Run W (.node (.forN c b)) o
  -- the rest
  | block {b o} : Run W (.yields b) o → Run W (.node (.block b)) o
  | lambda {b} : Run W (.node (.lambda b)) .done
  | otherDone {cs} : Run W (.node (.other cs)) .done
  | otherRaise {cs b} : (b = true → W.stop) → Run W (.node (.other cs)) (.raised b)
  | otherChild {cs c o} : c ∈ cs → Run W (.node c) o → o ≠ .done → Run W (.node (.other cs)) o

/-- A world in which no `StopIteration` is raised and `Kernel`'s methods are what they were. -/
def World.Plain (W : World) : Prop := ¬ W.stop ∧ ∀ name, ¬ W.own name

/-- The kind of a way to leave. -/
def Out.kind : Out → Option Exit
  | .done => none
  | .raised _ => some .raise
  | .ret => some .ret
  | .brk => some .brk
  | .nxt => some .nxt
  | .redo => some .redo
  | .retry => some .retry

/-- Code that ends normally or with an exception, and in no other way. -/
def Quiet (W : World) (t : Task) : Prop := ∀ o, Run W t o → o = .done ∨ ∃ b, o = .raised b

mutual
/-- Code whose leaving statements come last: everything evaluated before them is quiet. -/
inductive Tidy (W : World) : Node → Prop
  | leaves {n args o} : Leaves n args o → Quiet W (.seq args) → Tidy W n
  | quiet {n} : Quiet W (.node n) → Tidy W n
  | ifN {c b s} : Quiet W (.node c) → TidySeq W b → Tidy W s → Tidy W (.ifN c b (some s))
  | unlessN {c b s} : Quiet W (.node c) → TidySeq W b → TidySeq W s → Tidy W (.unlessN c b (some s))
  | caseN {s ws e} : Quiet W (.seq s) → (∀ w ∈ ws, Quiet W (.seq w.1)) → (∀ w ∈ ws, TidySeq W w.2) → TidySeq W e →
      Tidy W (.caseN s ws (some e))
  | caseMatch {s ws e} : Quiet W (.seq s) → (∀ w ∈ ws, Quiet W (.seq w.1)) → (∀ w ∈ ws, TidySeq W w.2) → TidySeq W e →
      Tidy W (.caseMatch s ws (some e))
  | begin {b rs n} : TidySeq W b → (∀ w ∈ rs, Quiet W (.seq w.1)) → (∀ w ∈ rs, TidySeq W w.2) → Quiet W (.seq n) →
      Tidy W (.beginN b rs [] n)
  | beginElse {b rs e n} : Quiet W (.seq b) → (∀ w ∈ rs, Quiet W (.seq w.1)) → (∀ w ∈ rs, TidySeq W w.2) → TidySeq W e →
      Quiet W (.seq n) → Tidy W (.beginN b rs e n)
  | stmts {b} : TidySeq W b → Tidy W (.stmts b)
  | elseN {b} : TidySeq W b → Tidy W (.elseN b)
inductive TidySeq (W : World) : List Node → Prop
  | nil : TidySeq W []
  | last {n} : Tidy W n → TidySeq W [n]
  | cons {n m l} : Quiet W (.node n) → TidySeq W (m :: l) → TidySeq W (n :: m :: l)
end

end Verif.ControlFlow
