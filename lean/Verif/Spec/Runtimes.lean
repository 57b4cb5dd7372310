import Verif.Model.Runtimes
/-! Versions, as texts of numbers with dots between them. -/
namespace Verif.Runtimes
open Verif.JavaSource (Text joinWith)

def value (t : Text) : Nat := Nat.ofDigitChars 10 t 0

/-- A number below 65536, in digits. -/
def Num (t : Text) : Prop := t ≠ [] ∧ (∀ c ∈ t, c.isDigit = true) ∧ value t < 65536

/-- At least `k` numbers with dots between them. -/
def Dotted (k : Nat) (v : Text) : Prop := ∃ cs : List Text, k ≤ cs.length ∧ (∀ c ∈ cs, Num c) ∧ v = joinWith '.' cs

/-- The beginning of a marker. -/
def Impl.dash : Impl → Text
  | .mri => tRubyDash
  | .jruby => tJrubyDash
  | .truffleruby => tTruffleDash

def pairLt (p q : Nat × Nat) : Prop := p.1 < q.1 ∨ (p.1 = q.1 ∧ p.2 < q.2)

/-- Where the marker's runtimes are: those on the path when there are any, or all. -/
def candidates (i : Impl) (v : Text) (rs : List Runtime) : List Runtime :=
  if rs.filter (fun r => decide (r.impl = i ∧ r.engine = v ∧ r.source = .path)) = [] then rs.filter (fun r => decide (r.impl = i ∧ r.engine = v))
  else rs.filter (fun r => decide (r.impl = i ∧ r.engine = v ∧ r.source = .path))

/-- Unicode's White_Space, for the cases. -/
def unicode : Space where
  ws c := let n := c.toNat
    (decide (9 ≤ n) && decide (n ≤ 13)) || n == 32 || n == 133 || n == 160 || n == 5760 || (decide (8192 ≤ n) && decide (n ≤ 8202)) || n == 8232 ||
      n == 8233 || n == 8239 || n == 8287 || n == 12288
  blank := by decide
  visible := by
    intro c h1 h2
    simp only [Bool.or_eq_false_iff, Bool.and_eq_false_iff, decide_eq_false_iff_not, beq_eq_false_iff_ne]
    omega

def txt (s : String) : Text := s.toList

end Verif.Runtimes
