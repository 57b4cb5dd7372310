import Verif.Lemmas.ControlFlow

/-!
C48: code reported as always leaving never ends normally.
-/
namespace Verif.ControlFlow

/-- What the analysis calls diverging never ends normally.  Missing: this needs that no `StopIteration` is raised in the code and
that `Kernel`'s methods are not redefined (`c48_stop_iteration`, `c48_own_method`). -/
theorem c48_diverges_partial {W : World} (hW : W.Plain) {n : Node} (h : diverges n = true) : ¬ Run W (.node n) .done := by
  intro hr
  have := sound hW hr rfl
  simp only [Div] at this
  unfold diverges at h
  rw [h] at this
  cases this

theorem unreachable_prefix {W : World} (hW : W.Plain) : ∀ (l : List Node) (seen : Bool) (i : Nat),
    (unreachable seen l)[i]? = some true → seen = true ∨ ¬ Run W (.seq (l.take i)) .done := by
  intro l
  induction l with
  | nil => intro seen i h; simp [unreachable] at h
  | cons n l ih =>
    intro seen i h
    cases i with
    | zero => left; simpa [unreachable] using h
    | succ i =>
      rcases ih _ i (by simpa [unreachable] using h) with hs | hs
      · simp only [Bool.or_eq_true] at hs
        rcases hs with hs | hs
        · exact .inl hs
        · right
          intro hr
          rw [List.take_succ_cons] at hr
          cases hr with
          | cons h1 _ => exact c48_diverges_partial hW hs h1
          | head _ h2 => exact h2 rfl
      · right
        intro hr
        rw [List.take_succ_cons] at hr
        cases hr with
        | cons _ h2 => exact hs h2
        | head _ h2 => exact h2 rfl

/-- A statement reported as unreachable is never started: the statements before it do not all end normally.  Missing: as for
`c48_diverges_partial`. -/
theorem c48_unreachable_partial {W : World} (hW : W.Plain) {l : List Node} {i : Nat}
    (h : (unreachable false l)[i]? = some true) : ¬ Run W (.seq (l.take i)) .done := by
  rcases unreachable_prefix hW l false i h with h | h
  · cases h
  · exact h

/-- The set of exits covers every way the code can leave, apart from exceptions, which anything may raise.  Missing: holds for code
in which leaving statements come last (`c48_earlier_exit`, `c48_loop_return`). -/
theorem c48_exit_set_partial {W : World} (hW : W.Plain) {n : Node} (ht : Tidy W n) {es : ExitSet} (h : analyze n = .diverges es)
    {o : Out} (hr : Run W (.node n) o) : (∃ b, o = .raised b) ∨ ∃ k, o.kind = some k ∧ es k = true := by
  rcases exits hW hr ht es h with rfl | h' | h'
  · exact absurd hr (c48_diverges_partial hW (by simp [diverges, h, Reach.isDiverges]))
  · exact .inl h'
  · exact .inr h'

/-- Code that is said to leave the method returns or raises.  Missing: as for `c48_exit_set_partial`. -/
theorem c48_exits_method_partial {W : World} (hW : W.Plain) {n : Node} (ht : Tidy W n) (h : exitsMethod n = true)
    {o : Out} (hr : Run W (.node n) o) : o = .ret ∨ ∃ b, o = .raised b := by
  unfold exitsMethod at h
  cases ha : analyze n with
  | falls => rw [ha] at h; cases h
  | diverges es =>
    rw [ha] at h
    simp only [Bool.and_eq_true, Bool.not_eq_true'] at h
    obtain ⟨⟨⟨⟨_, h1⟩, h2⟩, h3⟩, h4⟩ := h
    rcases c48_exit_set_partial hW ht ha hr with h' | ⟨k, hk, hs⟩
    · exact .inr h'
    · cases o with
      | ret => exact .inl rfl
      | raised b => exact .inr ⟨b, rfl⟩
      | done => cases hk
      | brk => cases hk; simp [h1] at hs
      | nxt => cases hk; simp [h2] at hs
      | redo => cases hk; simp [h3] at hs
      | retry => cases hk; simp [h4] at hs

/-- A block without the exits that callables do not support ends normally, with `next` or an exception, in any world.  Missing: it
may also return from the method, through a block inside of it (`c48_nested_return`). -/
theorem c48_blocks_partial {W : World} {n : Node} (h : hasExit n = false) {o : Out} (hr : Run W (.node n) o) :
    o = .done ∨ o = .nxt ∨ (∃ b, o = .raised b) ∨ o = .ret := by
  have := exit_found hr
  simp only [ExitIn, h] at this
  cases o <;> simp_all

/-- A world without surprises. -/
def plainWorld : World := { stop := False, own := fun _ => False }

theorem plainWorld_plain : plainWorld.Plain := ⟨id, fun _ => id⟩

/-- `begin; if c then return 1 else raise end; rescue; exit; end; x` -/
def exampleBody : List Node :=
  [.beginN [.ifN (.call none "c" [] none) [.ret [.other []]] (some (.elseN [.call none "raise" [] none]))]
      [([], [.call none "exit" [] none])] [] [],
    .call none "x" [] none]

/-- The `begin` leaves by `return` or an exception, both happen, and what follows is reported. -/
theorem c48_example :
    unreachable false exampleBody = [false, true] ∧ Run plainWorld (.seq exampleBody) .ret ∧
    Run plainWorld (.seq exampleBody) (.raised false) := by
  have hc : Run plainWorld (.node (.call none "c" [] none)) .done :=
    .callDone (by intro h; cases h with | self hm _ => revert hm; decide)
  refine ⟨rfl, ?_, ?_⟩
  · exact .head (.ensured (.bodyLeaves (.head (.ifThen hc (.head (.leave .ret (.cons .otherDone .nil)) (by decide))) (by decide))
      (by decide)) .nil) (by decide)
  · exact .head (.ensured (.rescue (s := false) (.head (.ifElse hc (.elseN (.head (.callRaise (by simp)) (by decide)))) (by decide))
      (List.mem_cons_self ..) (.head (.callRaise (b := false) (by simp)) (by decide)) (by decide)) .nil) (by decide)

/-- The exits of tidy code: `if c then return else raise end` has exactly those two. -/
theorem c48_exit_example :
    let n : Node := .ifN (.const "C") [.ret []] (some (.elseN [.call none "raise" [] none]))
    Tidy plainWorld n ∧ exitsMethod n = true ∧ Run plainWorld (.node n) .ret ∧ Run plainWorld (.node n) (.raised false) := by
  refine ⟨?_, rfl, ?_, ?_⟩
  · refine .ifN ?_ (.last (.leaves .ret ?_)) (.elseN (.last (.quiet ?_)))
    · intro o h
      cases h with
      | leave hl => cases hl
      | leaveArg hl => cases hl
      | const => exact .inl rfl
      | constRaise => exact .inr ⟨_, rfl⟩
    · intro o h
      cases h
      exact .inl rfl
    · intro o h
      cases h with
      | leave hl => cases hl
      | leaveArg hl => cases hl
      | callArg h _ => cases h; exact .inl rfl
      | callRaise => exact .inr ⟨_, rfl⟩
      | callLoop hl _ => exact absurd hl.2.1 (by decide)
      | callDone _ => exact .inl rfl
  · exact .ifThen .const (.head (.leave .ret .nil) (by decide))
  · exact .ifElse .const (.elseN (.head (.callRaise (by simp)) (by decide)))

/-- `loop { e.next }` is reported as never ending, but ends normally when the enumerator is exhausted. -/
theorem c48_stop_iteration :
    let n : Node := .call none "loop" [] (some [.call (some (.call none "e" [] none)) "next" [] none])
    diverges n = true ∧ Run { stop := True, own := fun _ => False } (.node n) .done := by
  refine ⟨rfl, ?_⟩
  exact .callLoop ⟨rfl, rfl, rfl, id⟩ (.loopStop (.head (.callRaise (fun _ => trivial)) (by decide)))

/-- A call of the program's own `abort` is reported as never returning. -/
theorem c48_own_method :
    let n : Node := .call none "abort" [] none
    diverges n = true ∧ Run { stop := False, own := fun name => name = "abort" } (.node n) .done := by
  refine ⟨rfl, .callDone ?_⟩
  intro h
  cases h with
  | self _ ho => exact ho rfl

/-- `next if c; return` is said to leave the method, but may only go on with the next element. -/
theorem c48_earlier_exit :
    let n : Node := .stmts [.ifN (.const "C") [.nxt []] none, .ret []]
    exitsMethod n = true ∧ Run plainWorld (.node n) .nxt := by
  refine ⟨rfl, .stmts (.head (.ifThen .const (.head (.leave .nxt .nil) (by decide))) (by decide))⟩

/-- `loop { return 1 }` is said to raise, but returns. -/
theorem c48_loop_return :
    let n : Node := .call none "loop" [] (some [.ret [.other []]])
    (∃ es, analyze n = .diverges es ∧ es .ret = false) ∧ Run plainWorld (.node n) .ret := by
  refine ⟨⟨_, rfl, rfl⟩, ?_⟩
  exact .callLoop ⟨rfl, rfl, rfl, id⟩ (.loopReturn (.head (.leave .ret (.cons .otherDone .nil)) (by decide)))

/-- `xs.each { return 1 }` inside a block returns from the method, and is not noticed. -/
theorem c48_nested_return :
    let n : Node := .call (some (.const "XS")) "each" [] (some [.ret [.other []]])
    hasExit n = false ∧ Run plainWorld (.node n) .ret := by
  refine ⟨rfl, .callBlock ?_ ?_ (.yieldsReturn (.head (.leave .ret (.cons .otherDone .nil)) (by decide)))⟩
  · intro h
    cases h with
    | module hm _ _ => revert hm; decide
  · intro h
    cases h.1

end Verif.ControlFlow
