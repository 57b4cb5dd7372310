import Verif.Model.RubyVersions
import Verif.Spec.Runtimes
import Verif.Spec.Archive
/-! Versions of Ruby as texts, and the tables of the engines. -/
namespace Verif.RubyVersions
open Verif.JavaSource (Text)
open Verif.Runtimes (Space Impl)
open Verif.Archive (Padded)

/-- A number below 256 in digits, perhaps with a plus sign. -/
def Byte (t : Text) (n : Nat) : Prop :=
  ∃ ds : Text, (t = ds ∨ t = '+' :: ds) ∧ ds ≠ [] ∧ (∀ c ∈ ds, c.isDigit = true) ∧ Nat.ofDigitChars 10 ds 0 = n ∧ n < 256

/-- Two numbers with a dot between them, and behind another dot anything. -/
def Numbered (t : Text) (p : Nat × Nat) : Prop :=
  ∃ a b : Text, Byte a p.1 ∧ Byte b p.2 ∧ (t = a ++ '.' :: b ∨ ∃ rest, t = a ++ '.' :: (b ++ '.' :: rest))

/-- The versions of JRuby with the versions of Ruby. -/
def jrubyTable : List ((Nat × Nat) × (Nat × Nat)) :=
  [((1, 7), (1, 9)), ((9, 0), (2, 2)), ((9, 1), (2, 3)), ((9, 2), (2, 5)), ((9, 3), (2, 6)), ((9, 4), (3, 1)), ((10, 0), (3, 4)), ((10, 1), (4, 0))]

/-- The major versions of TruffleRuby with the versions of Ruby. -/
def truffleTable : List (Nat × (Nat × Nat)) := [(19, (2, 6)), (20, (2, 7)), (21, (3, 0)), (22, (3, 1)), (23, (3, 2))]

/-- What a marker such as `3.2.1`, `ruby-3.2.1`, `jruby-9.4.5.0` or `truffleruby-23.1.1` says. -/
def Says (t : Text) (v : Version) : Prop :=
  match v.impl with
  | .mri => Numbered t (v.major, v.minor) ∨ ∃ r, t = "ruby-".toList ++ r ∧ Numbered r (v.major, v.minor)
  | .jruby => ∃ r e, t = "jruby-".toList ++ r ∧ Numbered r e ∧ (e, (v.major, v.minor)) ∈ jrubyTable
  | .truffleruby => ∃ r e, t = "truffleruby-".toList ++ r ∧ Numbered r e ∧ (e.1, (v.major, v.minor)) ∈ truffleTable

/-- A text without white space that is not empty, between white space or the ends. -/
def WordAt (S : Space) (t pre w post : Text) : Prop :=
  t = pre ++ w ++ post ∧ w ≠ [] ∧ (∀ c ∈ w, S.ws c = false) ∧ (pre = [] ∨ ∃ p c, pre = p ++ [c] ∧ S.ws c = true) ∧
    (post = [] ∨ ∃ c p, post = c :: p ∧ S.ws c = true)

/-- The value that the relation gives for the first word for which there is one. -/
def FirstWith {α : Type} (S : Space) (R : Text → α → Prop) (t : Text) (v : α) : Prop :=
  ∃ pre w post, WordAt S t pre w post ∧ R w v ∧ ∀ pre' w' post', WordAt S t pre' w' post' → pre'.length < pre.length → ∀ u, ¬ R w' u

def Occurs (p t : Text) : Prop := ∃ a b, t = a ++ (p ++ b)

/-- The text behind the first occurrence. -/
def Behind (p t r : Text) : Prop := ∃ a, t = a ++ (p ++ r) ∧ ∀ a' r', t = a' ++ (p ++ r') → a.length ≤ a'.length

/-- The text before the first occurrence, or all of it. -/
def UpTo (p t m : Text) : Prop :=
  (m = t ∧ ¬ Occurs p t) ∨ ∃ r, t = m ++ (p ++ r) ∧ ∀ a' r', t = a' ++ (p ++ r') → m.length ≤ a'.length

/-- A version between the first opening parenthesis and the next closing one. -/
def Parens (t : Text) (p : Nat × Nat) : Prop :=
  ∃ a b c, t = a ++ '(' :: (b ++ ')' :: c) ∧ '(' ∉ a ∧ ')' ∉ b ∧ Numbered b p

def LikeRuby (S : Space) (t : Text) (p : Nat × Nat) : Prop := ∃ r, Behind "like ruby ".toList t r ∧ FirstWith S Numbered r p

/-- What the output of `ruby --version` says. -/
def OutputSays (S : Space) (t : Text) (v : Version) : Prop :=
  match v.impl with
  | .mri => ¬ Occurs "jruby".toList t ∧ ¬ Occurs "truffleruby".toList t ∧ FirstWith S Numbered t (v.major, v.minor)
  | .jruby => Occurs "jruby".toList t ∧ (Parens t (v.major, v.minor) ∨
      (∀ p, ¬ Parens t p) ∧ FirstWith S (fun w p => ∃ e, Numbered w e ∧ (e, p) ∈ jrubyTable) t (v.major, v.minor))
  | .truffleruby => ¬ Occurs "jruby".toList t ∧ Occurs "truffleruby".toList t ∧ (LikeRuby S t (v.major, v.minor) ∨
      (∀ p, ¬ LikeRuby S t p) ∧ FirstWith S (fun w p => ∃ e, Numbered w e ∧ (e.1, p) ∈ truffleTable) t (v.major, v.minor))

def FirstWord (S : Space) (t w : Text) : Prop := ∃ pre post, WordAt S t pre w post ∧ ∀ c ∈ pre, S.ws c = true

def SecondWord (S : Space) (t w : Text) : Prop :=
  ∃ a x b post, t = a ++ (x ++ (b ++ (w ++ post))) ∧ (∀ c ∈ a, S.ws c = true) ∧ x ≠ [] ∧ (∀ c ∈ x, S.ws c = false) ∧ b ≠ [] ∧ (∀ c ∈ b, S.ws c = true) ∧
    w ≠ [] ∧ (∀ c ∈ w, S.ws c = false) ∧ (post = [] ∨ ∃ c p, post = c :: p ∧ S.ws c = true)

def quoteMark (c : Char) : Bool := decide (c ∈ ['"', '\'', '~', '>', ' '])

/-- A line of a Gemfile that begins with `ruby`, with a version as the next word, perhaps in quotes. -/
def Directive (S : Space) (l : Text) (v : Version) : Prop :=
  ∃ a rest w x, l = a ++ ("ruby ".toList ++ rest) ∧ (∀ c ∈ a, S.ws c = true) ∧ FirstWord S rest w ∧ Padded quoteMark x w ∧ Says x v

/-- A line of a .rvmrc file. -/
def RvmLine (S : Space) (l : Text) (v : Version) : Prop :=
  ∃ r m w, Behind "ruby-".toList l r ∧ UpTo "ruby-".toList r m ∧ FirstWord S m w ∧ Says w v

/-- What the first line says that says something. -/
def FirstLine (R : Text → Version → Prop) (t : Text) (v : Version) : Prop :=
  ∃ l1 l l2, t = Verif.JavaSource.joinWith '\n' (l1 ++ l :: l2) ∧ (∀ x ∈ l1 ++ l :: l2, '\n' ∉ x) ∧ R l v ∧ ∀ x ∈ l1, ∀ u, ¬ R x u

/-- The sources of a version in the order of their precedence. -/
def sources (S : Space) (w : World) : List (Version → Prop) :=
  [fun v => ∃ t x, w.rubyVersion = some t ∧ Padded S.ws x t ∧ Says x v,
   fun v => ∃ t, w.gemfile = some t ∧ FirstLine (Directive S) t v,
   fun v => ∃ t x, w.rbenvFile = some t ∧ Padded S.ws x t ∧ Says x v,
   fun v => ∃ t x, w.rbenvCommand = some t ∧ FirstWord S t x ∧ Says x v,
   fun v => ∃ t, w.rvmrc = some t ∧ FirstLine (RvmLine S) t v,
   fun v => ∃ t r x, w.rvmCommand = some t ∧ t = "ruby-".toList ++ r ∧ Padded S.ws x r ∧ Says x v,
   fun v => ∃ t, w.system = some t ∧ OutputSays S t v,
   fun v => ∃ t x, w.system = some t ∧ SecondWord S t x ∧ Says x v]

end Verif.RubyVersions
