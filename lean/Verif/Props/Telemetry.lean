import Verif.Spec.Telemetry
import Verif.Props.CheckReport
/-!
C88: what is counted about the inference of types, and for which file.
-/
namespace Verif.Telemetry
open Verif.Types (Ty)
open Verif.CheckReport (natLe lin_nat lin_order)

/-! ### Adding -/

theorem plus_assoc (a b c : Telemetry) : plus (plus a b) c = plus a (plus b c) := by
  ext x
  · exact Nat.add_assoc _ _ _
  · exact Nat.max_assoc _ _ _
  · exact Nat.add_assoc _ _ _

theorem plus_comm (a b : Telemetry) : plus a b = plus b a := by
  ext x
  · exact Nat.add_comm _ _
  · exact Nat.max_comm _ _
  · exact Nat.add_comm _ _

theorem plus_zero (a : Telemetry) : plus a zero = a := by
  ext x
  · rfl
  · exact Nat.max_zero _
  · rfl

theorem fits_iff (t : Telemetry) : fitsIn t = true ↔ (∀ c, t.sum c < 2 ^ 64) ∧ ∀ r, t.reasons r < 2 ^ 64 := by
  unfold fitsIn
  rw [Bool.and_eq_true, List.all_eq_true, List.all_eq_true]
  simp only [decide_eq_true_eq]
  constructor
  · rintro ⟨h1, h2⟩
    exact ⟨fun c => h1 c (by cases c <;> decide), fun r => h2 r (List.mem_finRange r)⟩
  · rintro ⟨h1, h2⟩
    exact ⟨fun c _ => h1 c, fun r _ => h2 r⟩

theorem fits_left {a b : Telemetry} (h : fitsIn (plus a b) = true) : fitsIn a = true := by
  rw [fits_iff] at h ⊢
  refine ⟨fun c => ?_, fun r => ?_⟩
  · have := h.1 c; simp only [plus] at this; omega
  · have := h.2 r; simp only [plus] at this; omega

theorem fit_some (t u : Telemetry) : fit t = some u ↔ fitsIn t = true ∧ u = t := by
  unfold fit
  by_cases h : fitsIn t = true <;> simp [h, eq_comm]

/-- **C88 (merging).** Counts are added, peaks are the larger, and merging fails exactly when a count does not fit. -/
theorem c88_merge (a b c : Telemetry) : merge a b = some c ↔ (∀ x, c.sum x = a.sum x + b.sum x ∧ c.sum x < 2 ^ 64) ∧
    (∀ p, c.peak p = max (a.peak p) (b.peak p)) ∧ ∀ r, c.reasons r = a.reasons r + b.reasons r ∧ c.reasons r < 2 ^ 64 := by
  unfold merge
  rw [fit_some, fits_iff]
  constructor
  · rintro ⟨⟨h1, h2⟩, rfl⟩
    exact ⟨fun x => ⟨rfl, h1 x⟩, fun p => rfl, fun r => ⟨rfl, h2 r⟩⟩
  · rintro ⟨h1, h2, h3⟩
    have : c = plus a b := by
      ext x
      · exact (h1 x).1
      · exact h2 x
      · exact (h3 x).1
    subst this
    exact ⟨⟨fun x => (h1 x).2, fun r => (h3 r).2⟩, rfl⟩

/-- **C88 (order of merging).** The order and the grouping of merging do not matter, not even for whether it fails. -/
theorem c88_assoc (a b c : Telemetry) : merge a b = merge b a ∧ (merge a b).bind (fun x => merge x c) = (merge b c).bind (fun x => merge a x) := by
  refine ⟨by unfold merge; rw [plus_comm], ?_⟩
  have h1 : (merge a b).bind (fun x => merge x c) = fit (plus (plus a b) c) := by
    unfold merge
    cases e : fit (plus a b) with
    | some x => rw [fit_some] at e; rw [e.2]; rfl
    | none =>
      unfold fit at e ⊢
      by_cases h : fitsIn (plus (plus a b) c) = true
      · rw [if_pos (fits_left h)] at e; cases e
      · rw [if_neg h]; rfl
  have h2 : (merge b c).bind (fun x => merge a x) = fit (plus (plus a b) c) := by
    unfold merge
    rw [plus_assoc]
    cases e : fit (plus b c) with
    | some x => rw [fit_some] at e; rw [e.2]; rfl
    | none =>
      unfold fit at e ⊢
      by_cases h : fitsIn (plus a (plus b c)) = true
      · rw [plus_comm] at h
        rw [if_pos (fits_left h)] at e; cases e
      · rw [if_neg h]; rfl
  rw [h1, h2]

theorem mergeAll_fit : ∀ (l : List Telemetry) (t : Telemetry), fitsIn t = true → mergeAll t l = fit (l.foldl plus t)
  | [], t, h => by simp [mergeAll, fit, h]
  | x :: xs, t, h => by
    simp only [mergeAll, merge, List.foldl_cons]
    by_cases e : fitsIn (plus t x) = true
    · rw [show fit (plus t x) = some (plus t x) by unfold fit; rw [if_pos e]]
      exact mergeAll_fit xs _ e
    · rw [show fit (plus t x) = none by unfold fit; rw [if_neg e]]
      have key : ∀ (l : List Telemetry) (u : Telemetry), fitsIn (l.foldl plus u) = true → fitsIn u = true := by
        intro l
        induction l with
        | nil => intro u h; exact h
        | cons y l ih => intro u h; exact fits_left (ih _ h)
      unfold fit
      rw [if_neg (fun h => e (key xs _ h))]
      rfl

theorem foldl_plus (l : List Telemetry) (t : Telemetry) : (∀ c, (l.foldl plus t).sum c = t.sum c + sumOf (fun x => x.sum c) l) ∧
    (∀ p, (l.foldl plus t).peak p = max (t.peak p) (most (fun x => x.peak p) l)) ∧
    ∀ r, (l.foldl plus t).reasons r = t.reasons r + sumOf (fun x => x.reasons r) l := by
  induction l generalizing t with
  | nil => exact ⟨fun _ => rfl, fun _ => (Nat.max_zero _).symm, fun _ => rfl⟩
  | cons x l ih =>
    obtain ⟨h1, h2, h3⟩ := ih (plus t x)
    refine ⟨fun c => ?_, fun p => ?_, fun r => ?_⟩
    · rw [List.foldl_cons, h1]; simp only [plus, sumOf, List.map_cons, List.sum_cons]; omega
    · rw [List.foldl_cons, h2]; simp only [plus, most, List.foldr_cons]; omega
    · rw [List.foldl_cons, h3]; simp only [plus, sumOf, List.map_cons, List.sum_cons]; omega

/-- **C88 (totals).** The total of files has the sum of each count and the largest of each peak, fails exactly when a sum does not fit, and does not
depend on the order of the files. -/
theorem c88_total (l : List Telemetry) : (∀ t, mergeAll zero l = some t ↔
      (∀ c, t.sum c = sumOf (fun x => x.sum c) l ∧ t.sum c < 2 ^ 64) ∧ (∀ p, t.peak p = most (fun x => x.peak p) l) ∧
      ∀ r, t.reasons r = sumOf (fun x => x.reasons r) l ∧ t.reasons r < 2 ^ 64) ∧
    ∀ l', l.Perm l' → mergeAll zero l = mergeAll zero l' := by
  have hz : fitsIn zero = true := by rw [fits_iff]; exact ⟨fun _ => by simp [zero], fun _ => by simp [zero]⟩
  obtain ⟨h1, h2, h3⟩ := foldl_plus l zero
  refine ⟨fun t => ?_, fun l' hl => ?_⟩
  · rw [mergeAll_fit l zero hz, fit_some, fits_iff]
    constructor
    · rintro ⟨⟨h4, h5⟩, rfl⟩
      exact ⟨fun c => ⟨by rw [h1]; simp [zero], h4 c⟩, fun p => by rw [h2]; simp [zero], fun r => ⟨by rw [h3]; simp [zero], h5 r⟩⟩
    · rintro ⟨h4, h5, h6⟩
      have : t = l.foldl plus zero := by
        ext x
        · rw [h1, (h4 x).1]; simp [zero]
        · rw [h2, h5]; simp [zero]
        · rw [h3, (h6 x).1]; simp [zero]
      subst this
      exact ⟨⟨fun c => (h4 c).2, fun r => (h6 r).2⟩, rfl⟩
  · rw [mergeAll_fit l zero hz, mergeAll_fit l' zero hz]
    congr 1
    refine hl.foldl_eq' ?_ zero
    intro x _ y _ z
    rw [plus_assoc, plus_assoc, plus_comm x y]

/-! ### Returns -/

def isProven : Outcome → Bool
  | .proven _ => true
  | .unknown _ => false

def hasReason (r : Reason) : Outcome → Bool
  | .proven _ => false
  | .unknown x => decide (x = r)

theorem observeReturn_counts (t : Telemetry) (o : Outcome) : (observeReturn t o).sum .outcomes = t.sum .outcomes + 1 ∧
    (observeReturn t o).sum .proven = t.sum .proven + (if isProven o then 1 else 0) ∧
    (observeReturn t o).sum .unknown = t.sum .unknown + (if isProven o then 0 else 1) ∧
    (∀ r, (observeReturn t o).reasons r = t.reasons r + (if hasReason r o then 1 else 0)) ∧ (observeReturn t o).peak = t.peak ∧
    ∀ c, c ≠ .outcomes → c ≠ .proven → c ≠ .unknown → (observeReturn t o).sum c = t.sum c := by
  cases o with
  | proven ty => 
    refine ⟨rfl, rfl, rfl, fun _ => rfl, rfl, fun c h1 h2 h3 => ?_⟩
    simp [observeReturn, addCount, h1, h2]
  | unknown x =>
    refine ⟨rfl, rfl, rfl, fun r => ?_, rfl, fun c h1 h2 h3 => ?_⟩
    · simp only [observeReturn, addCount, addReason, hasReason, decide_eq_true_eq]
      by_cases h : r = x
      · subst h; simp
      · rw [if_neg h, if_neg (fun e => h e.symm)]; rfl
    · simp [observeReturn, addCount, addReason, h1, h3]

/-- **C88 (returns).** Every return is counted, as proven or as unknown with its reason, and nothing else changes. -/
theorem c88_returns (os : List Outcome) (t : Telemetry) : (os.foldl observeReturn t).sum .outcomes = t.sum .outcomes + os.length ∧
    (os.foldl observeReturn t).sum .proven = t.sum .proven + os.countP isProven ∧
    (os.foldl observeReturn t).sum .unknown = t.sum .unknown + os.countP (fun o => !isProven o) ∧
    (∀ r, (os.foldl observeReturn t).reasons r = t.reasons r + os.countP (hasReason r)) ∧ (os.foldl observeReturn t).peak = t.peak ∧
    ∀ c, c ≠ .outcomes → c ≠ .proven → c ≠ .unknown → (os.foldl observeReturn t).sum c = t.sum c := by
  induction os generalizing t with
  | nil => exact ⟨rfl, rfl, rfl, fun _ => rfl, rfl, fun _ _ _ _ => rfl⟩
  | cons o os ih =>
    obtain ⟨h1, h2, h3, h4, h5, h6⟩ := ih (observeReturn t o)
    obtain ⟨g1, g2, g3, g4, g5, g6⟩ := observeReturn_counts t o
    rw [List.foldl_cons]
    refine ⟨?_, ?_, ?_, fun r => ?_, h5.trans g5, fun c a b d => (h6 c a b d).trans (g6 c a b d)⟩
    · rw [h1, g1, List.length_cons]; omega
    · rw [h2, g2, List.countP_cons]; omega
    · rw [h3, g3, List.countP_cons]; cases isProven o <;> simp <;> omega
    · rw [h4, g4, List.countP_cons]; omega

theorem sum_step (n : Nat) (f : Fin n → Nat) (x : Fin n) (l : List (Fin n)) (hl : l.Nodup) : sumOf (fun r => f r + (if x = r then 1 else 0)) l =
    sumOf f l + (if x ∈ l then 1 else 0) := by
  induction l with
  | nil => rfl
  | cons y l ih =>
    rw [List.nodup_cons] at hl
    have ih := ih hl.2
    simp only [sumOf, List.map_cons, List.sum_cons, List.mem_cons] at ih ⊢
    rw [ih]
    by_cases e : x = y
    · subst e
      simp [hl.1]; omega
    · simp [e]; omega

theorem observeReturn_balanced (t : Telemetry) (o : Outcome) (h : Balanced t) : Balanced (observeReturn t o) := by
  obtain ⟨g1, g2, g3, g4, _, _⟩ := observeReturn_counts t o
  unfold Balanced at h ⊢
  refine ⟨?_, ?_⟩
  · rw [g1, g2, g3]; cases isProven o <;> simp <;> omega
  · rw [g3, ← h.2]
    cases o with
    | proven ty =>
      simp only [isProven, if_true, Nat.add_zero]
      rfl
    | unknown x =>
      have hf : (observeReturn t (.unknown x)).reasons = fun r => t.reasons r + (if x = r then 1 else 0) := by
        funext r
        rw [g4]
        simp [hasReason]
      rw [hf, sum_step 25 t.reasons x _ (List.nodup_finRange 25), if_pos (List.mem_finRange x)]
      simp [isProven]

/-! ### Types -/

/-- What a type counts by itself. -/
def node (x : Ty) : Telemetry :=
  ⟨fun
    | .shapes => if isShape x then 1 else 0
    | .fields => shapeFields x
    | .unions => if width x = 0 then 0 else 1
    | .variants => width x
    | _ => 0,
   fun
    | .fields => shapeFields x
    | .depth => shapeDepth x
    | .variants => width x
    | .aliases => 0,
   fun _ => 0⟩

theorem shape_node (t : Telemetry) (fs : List (Verif.Types.Lit × Bool × Ty)) (r : Option (Ty × Ty)) (o z : Bool) (d : Nat) :
    observeShape t fs.length d = plus t (node (.shape fs r o z d)) := by
  ext x
  · cases x <;> simp [observeShape, raise, addCount, plus, node, isShape, shapeFields, width]
  · cases x <;> simp [observeShape, raise, addCount, plus, node, shapeFields, shapeDepth, width]
  · rfl

theorem union_node (t : Telemetry) (ms : List Ty) : observeUnion t ms = plus t (node (.union ms)) := by
  have hc : (ms.filter isShape).length = ms.countP isShape := List.countP_eq_length_filter.symm
  unfold observeUnion
  rw [hc]
  by_cases h : 1 < ms.countP isShape
  · dsimp only
    rw [if_pos h]
    have hw : width (.union ms) = ms.countP isShape := by simp only [width]; rw [if_pos (by omega)]
    have hn : ¬ width (.union ms) = 0 := by omega
    rw [← hw]
    ext x
    · cases x <;> simp [raise, addCount, plus, node, isShape, shapeFields, hn]
    · cases x <;> simp [raise, addCount, plus, node, shapeFields, shapeDepth]
    · rfl
  · dsimp only
    rw [if_neg h]
    have hw : width (.union ms) = 0 := by simp only [width]; rw [if_neg (by omega)]
    ext x
    · cases x <;> simp [plus, node, isShape, shapeFields, hw]
    · cases x <;> simp [plus, node, shapeFields, shapeDepth, hw]
    · rfl

theorem still (t : Telemetry) (x : Ty) (h1 : isShape x = false) (h2 : shapeFields x = 0) (h3 : width x = 0) (h4 : shapeDepth x = 0) : plus t (node x) = t := by
  ext y
  · cases y <;> simp [plus, node, h1, h2, h3]
  · cases y <;> simp [plus, node, h2, h3, h4]
  · rfl

mutual
theorem type_nodes (t : Telemetry) : ∀ x : Ty, observeType t x = ((inside x).map node).foldl plus t
  | .shape fs r o z d => by
    simp only [observeType, inside, List.map_cons, List.foldl_cons, List.map_append, List.foldl_append]
    rw [← shape_node, ← fields_nodes, rest_nodes]
  | .union ms => by
    simp only [observeType, inside, List.map_cons, List.foldl_cons]
    rw [← union_node, types_nodes]
  | .array ts => by
    simp only [observeType, inside, List.map_cons, List.foldl_cons]
    rw [still t _ rfl rfl rfl rfl, types_nodes]
  | .hash ks vs => by
    simp only [observeType, inside, List.map_cons, List.foldl_cons, List.map_append, List.foldl_append]
    rw [still t _ rfl rfl rfl rfl, types_nodes t ks, types_nodes _ vs]
  | .cls n => (still t _ rfl rfl rfl rfl).symm
  | .mod n => (still t _ rfl rfl rfl rfl).symm
  | .clsRef n => (still t _ rfl rfl rfl rfl).symm
  | .modRef n => (still t _ rfl rfl rfl rfl).symm
  | .lit v => (still t _ rfl rfl rfl rfl).symm
  | .unknown => (still t _ rfl rfl rfl rfl).symm
theorem types_nodes (t : Telemetry) : ∀ xs : List Ty, observeTypes t xs = ((insideAll xs).map node).foldl plus t
  | [] => rfl
  | x :: xs => by
    simp only [observeTypes, insideAll, List.map_append, List.foldl_append]
    rw [← type_nodes, types_nodes]
theorem fields_nodes (t : Telemetry) : ∀ xs : List (Verif.Types.Lit × Bool × Ty), observeFields t xs = ((insideFields xs).map node).foldl plus t
  | [] => rfl
  | (a, b, x) :: xs => by
    simp only [observeFields, insideFields, List.map_append, List.foldl_append]
    rw [← type_nodes, fields_nodes]
theorem rest_nodes (t : Telemetry) : ∀ r : Option (Ty × Ty), observeRest t r = ((insideRest r).map node).foldl plus t
  | none => rfl
  | some (k, v) => by
    simp only [observeRest, insideRest, List.map_append, List.foldl_append]
    rw [← type_nodes, ← type_nodes]
end

theorem sumOf_map {α β : Type} (f : α → β) (g : β → Nat) (l : List α) : sumOf g (l.map f) = sumOf (fun x => g (f x)) l := by
  unfold sumOf; rw [List.map_map]; rfl

theorem most_map {α β : Type} (f : α → β) (g : β → Nat) (l : List α) : most g (l.map f) = most (fun x => g (f x)) l := by
  unfold most; rw [List.foldr_map]

/-- **C88 (types).** A type counts every shape in it with its fields, and every union with several shapes directly in it with their number; the
peaks are the largest of them; nothing else changes. -/
theorem c88_type (t : Telemetry) (x : Ty) :
    (observeType t x).sum .shapes = t.sum .shapes + sumOf (fun y => if isShape y then 1 else 0) (inside x) ∧
    (observeType t x).sum .fields = t.sum .fields + sumOf shapeFields (inside x) ∧
    (observeType t x).sum .unions = t.sum .unions + sumOf (fun y => if width y = 0 then 0 else 1) (inside x) ∧
    (observeType t x).sum .variants = t.sum .variants + sumOf width (inside x) ∧
    (observeType t x).peak .fields = max (t.peak .fields) (most shapeFields (inside x)) ∧
    (observeType t x).peak .depth = max (t.peak .depth) (most shapeDepth (inside x)) ∧
    (observeType t x).peak .variants = max (t.peak .variants) (most width (inside x)) ∧
    (observeType t x).peak .aliases = t.peak .aliases ∧ (observeType t x).reasons = t.reasons ∧
    ∀ c, c ≠ .shapes → c ≠ .fields → c ≠ .unions → c ≠ .variants → (observeType t x).sum c = t.sum c := by
  rw [type_nodes]
  obtain ⟨h1, h2, h3⟩ := foldl_plus ((inside x).map node) t
  have hz : ∀ (l : List Ty), sumOf (fun _ : Ty => 0) l = 0 := by
    intro l; induction l with
    | nil => rfl
    | cons y l ih => simp only [sumOf, List.map_cons, List.sum_cons] at ih ⊢; omega
  have hm : ∀ (l : List Ty), most (fun _ : Ty => 0) l = 0 := by
    intro l; induction l with
    | nil => rfl
    | cons y l ih => simp only [most, List.foldr_cons] at ih ⊢; omega
  refine ⟨?_, ?_, ?_, ?_, ?_, ?_, ?_, ?_, ?_, ?_⟩
  · rw [h1, sumOf_map]; rfl
  · rw [h1, sumOf_map]; rfl
  · rw [h1, sumOf_map]; rfl
  · rw [h1, sumOf_map]; rfl
  · rw [h2, most_map]; rfl
  · rw [h2, most_map]; rfl
  · rw [h2, most_map]; rfl
  · rw [h2, most_map]
    show max _ (most (fun _ : Ty => 0) _) = _
    rw [hm]; exact Nat.max_zero _
  · funext r
    rw [h3, sumOf_map]
    show _ + sumOf (fun _ : Ty => 0) _ = _
    rw [hz]; rfl
  · intro c a1 a2 a3 a4
    rw [h1, sumOf_map]
    have : (fun y => (node y).sum c) = fun _ : Ty => 0 := by
      funext y
      cases c <;> first | rfl | contradiction
    rw [this, hz]; rfl


/-! ### What is seen in a file -/

def provenOf : Outcome → Option Ty
  | .proven t => some t
  | .unknown _ => none

def reasonOf : Outcome → Option Reason
  | .proven _ => none
  | .unknown r => some r

/-- All types of a file that are known. -/
def seenTypes (f : File) : List Ty := f.types.map (·.2) ++ f.reads ++ (f.outcomes.map (·.2)).filterMap provenOf ++ f.calls.filterMap provenOf

/-- All reasons why something in a file is unknown. -/
def seenReasons (f : File) : List Reason := (f.outcomes.map (·.2)).filterMap reasonOf ++ f.failures ++ f.calls.filterMap reasonOf

def nodeR (r : Reason) : Telemetry :=
  ⟨fun
    | .invalidated => if r = 0 then 1 else 0
    | .exceeded => if r = 1 then 1 else 0
    | _ => 0, fun _ => 0, fun _ => 0⟩

theorem unknown_node (t : Telemetry) (r : Reason) : observeUnknown t r = [nodeR r].foldl plus t := by
  show _ = plus t (nodeR r)
  unfold observeUnknown
  by_cases h0 : r = 0
  · rw [if_pos h0]
    ext x
    · cases x <;> simp [addCount, plus, nodeR, h0]
    · simp [addCount, plus, nodeR]
    · rfl
  · rw [if_neg h0]
    by_cases h1 : r = 1
    · rw [if_pos h1]
      ext x
      · cases x <;> simp [addCount, plus, nodeR, h1]
      · simp [addCount, plus, nodeR]
      · rfl
    · rw [if_neg h1]
      ext x
      · cases x <;> simp [plus, nodeR, h0, h1]
      · simp [plus, nodeR]
      · rfl

def nodesO : Outcome → List Telemetry
  | .proven t => (inside t).map node
  | .unknown r => [nodeR r]

theorem outcome_nodes (t : Telemetry) (o : Outcome) : observeOutcome t o = (nodesO o).foldl plus t := by
  cases o with
  | proven ty => exact type_nodes t ty
  | unknown r => exact unknown_node t r

theorem foldl_nodes {α : Type} (g : Telemetry → α → Telemetry) (h : α → List Telemetry) (hg : ∀ t x, g t x = (h x).foldl plus t) (l : List α) (t : Telemetry) :
    l.foldl g t = (l.flatMap h).foldl plus t := by
  induction l generalizing t with
  | nil => rfl
  | cons x l ih => rw [List.foldl_cons, List.flatMap_cons, List.foldl_append, hg, ih]

theorem observed_nodes (f : File) : observed f = (f.types.flatMap (fun x => (inside x.2).map node) ++ f.reads.flatMap (fun x => (inside x).map node) ++
    f.outcomes.flatMap (fun x => nodesO x.2) ++ f.failures.flatMap (fun r => [nodeR r]) ++ f.calls.flatMap nodesO).foldl plus zero := by
  unfold observed
  dsimp only
  rw [foldl_nodes (fun t (x : Option Nat × Ty) => observeType t x.2) (fun x => (inside x.2).map node) (fun t x => type_nodes t x.2),
    foldl_nodes observeType (fun x => (inside x).map node) type_nodes, foldl_nodes (fun t (x : Nat × Outcome) => observeOutcome t x.2) (fun x => nodesO x.2) (fun t x => outcome_nodes t x.2),
    foldl_nodes observeUnknown (fun r => [nodeR r]) unknown_node, foldl_nodes observeOutcome nodesO outcome_nodes]
  simp only [List.foldl_append]

theorem sumOf_append {α : Type} (g : α → Nat) (a b : List α) : sumOf g (a ++ b) = sumOf g a + sumOf g b := by
  unfold sumOf; rw [List.map_append, List.sum_append_nat]

theorem most_append {α : Type} (g : α → Nat) (a b : List α) : most g (a ++ b) = max (most g a) (most g b) := by
  induction a with
  | nil => simp [most]
  | cons x a ih =>
    simp only [most, List.cons_append, List.foldr_cons] at ih ⊢
    rw [ih]; omega

theorem sumOf_types (g : Telemetry → Nat) (l : List Ty) : sumOf g (l.flatMap (fun x => (inside x).map node)) = sumOf (fun y => g (node y)) (l.flatMap inside) := by
  induction l with
  | nil => rfl
  | cons x l ih => rw [List.flatMap_cons, List.flatMap_cons, sumOf_append, sumOf_append, ih, sumOf_map]

theorem most_types (g : Telemetry → Nat) (l : List Ty) : most g (l.flatMap (fun x => (inside x).map node)) = most (fun y => g (node y)) (l.flatMap inside) := by
  induction l with
  | nil => rfl
  | cons x l ih => rw [List.flatMap_cons, List.flatMap_cons, most_append, most_append, ih, most_map]

theorem sumOf_outcomes (g : Telemetry → Nat) (l : List Outcome) : sumOf g (l.flatMap nodesO) =
    sumOf (fun y => g (node y)) ((l.filterMap provenOf).flatMap inside) + sumOf (fun r => g (nodeR r)) (l.filterMap reasonOf) := by
  induction l with
  | nil => rfl
  | cons o l ih =>
    cases o with
    | proven t =>
      rw [List.flatMap_cons, sumOf_append, ih]
      simp only [List.filterMap_cons, provenOf, reasonOf, List.flatMap_cons]
      rw [sumOf_append, show sumOf g (nodesO (.proven t)) = sumOf (fun y => g (node y)) (inside t) from sumOf_map _ _ _]; omega
    | unknown r =>
      rw [List.flatMap_cons, sumOf_append, ih]
      simp only [List.filterMap_cons, provenOf, reasonOf, nodesO, sumOf, List.map_cons, List.sum_cons, List.map_nil, List.sum_nil]; omega

theorem most_outcomes (g : Telemetry → Nat) (hg : ∀ r, g (nodeR r) = 0) (l : List Outcome) : most g (l.flatMap nodesO) =
    most (fun y => g (node y)) ((l.filterMap provenOf).flatMap inside) := by
  induction l with
  | nil => rfl
  | cons o l ih =>
    cases o with
    | proven t =>
      rw [List.flatMap_cons, most_append, ih]
      simp only [List.filterMap_cons, provenOf, List.flatMap_cons]
      rw [most_append, show most g (nodesO (.proven t)) = most (fun y => g (node y)) (inside t) from most_map _ _ _]
    | unknown r =>
      rw [List.flatMap_cons, most_append, ih]
      simp only [List.filterMap_cons, provenOf, nodesO, most, List.foldr_cons, List.foldr_nil, hg]; omega

theorem observed_sum (f : File) (c : Counter) : (observed f).sum c = sumOf (fun y => (node y).sum c) ((seenTypes f).flatMap inside) +
    sumOf (fun r => (nodeR r).sum c) (seenReasons f) := by
  rw [observed_nodes, (foldl_plus _ zero).1]
  unfold seenTypes seenReasons
  rw [sumOf_append, sumOf_append, sumOf_append, sumOf_append, sumOf_outcomes]
  have h1 : f.types.flatMap (fun x => (inside x.2).map node) = (f.types.map (·.2)).flatMap (fun x => (inside x).map node) := by rw [List.flatMap_map]
  have h2 : f.outcomes.flatMap (fun x => nodesO x.2) = (f.outcomes.map (·.2)).flatMap nodesO := by rw [List.flatMap_map]
  have h3 : ∀ l : List Reason, sumOf (fun x : Telemetry => x.sum c) (l.flatMap (fun r => [nodeR r])) = sumOf (fun r => (nodeR r).sum c) l := by
    intro l
    induction l with
    | nil => rfl
    | cons r l ih => rw [List.flatMap_cons, sumOf_append, ih]; simp [sumOf]
  rw [h1, h2, sumOf_types, sumOf_types, sumOf_outcomes, h3]
  simp only [List.flatMap_append, sumOf_append, zero]
  omega

theorem observed_peak (f : File) (p : Peak) : (observed f).peak p = most (fun y => (node y).peak p) ((seenTypes f).flatMap inside) := by
  rw [observed_nodes, (foldl_plus _ zero).2.1]
  unfold seenTypes
  have hg : ∀ r, (nodeR r).peak p = 0 := fun _ => rfl
  rw [most_append, most_append, most_append, most_append, most_outcomes _ hg]
  have h1 : f.types.flatMap (fun x => (inside x.2).map node) = (f.types.map (·.2)).flatMap (fun x => (inside x).map node) := by rw [List.flatMap_map]
  have h2 : f.outcomes.flatMap (fun x => nodesO x.2) = (f.outcomes.map (·.2)).flatMap nodesO := by rw [List.flatMap_map]
  have h3 : ∀ l : List Reason, most (fun x : Telemetry => x.peak p) (l.flatMap (fun r => [nodeR r])) = 0 := by
    intro l
    induction l with
    | nil => rfl
    | cons r l ih => rw [List.flatMap_cons, most_append, ih]; rfl
  rw [h1, h2, most_types, most_types, most_outcomes _ hg, h3]
  simp only [List.flatMap_append, most_append, zero]
  omega

theorem sumOf_zero {α : Type} (l : List α) : sumOf (fun _ : α => 0) l = 0 := by
  induction l with
  | nil => rfl
  | cons y l ih => simp only [sumOf, List.map_cons, List.sum_cons] at ih ⊢; omega

/-- **C88 (what is seen in a file).** The shapes, fields and unions of all known types of a file are counted, in facts, local reads, returns and calls,
and each time something in it is unknown because a shape was changed or is too large. -/
theorem c88_seen (f : File) : (observed f).sum .shapes = sumOf (fun y => if isShape y then 1 else 0) ((seenTypes f).flatMap inside) ∧
    (observed f).sum .fields = sumOf shapeFields ((seenTypes f).flatMap inside) ∧
    (observed f).sum .unions = sumOf (fun y => if width y = 0 then 0 else 1) ((seenTypes f).flatMap inside) ∧
    (observed f).sum .variants = sumOf width ((seenTypes f).flatMap inside) ∧
    (observed f).sum .invalidated = sumOf (fun r => if r = 0 then 1 else 0) (seenReasons f) ∧
    (observed f).sum .exceeded = sumOf (fun r => if r = 1 then 1 else 0) (seenReasons f) ∧
    (observed f).peak .fields = most shapeFields ((seenTypes f).flatMap inside) ∧ (observed f).peak .depth = most shapeDepth ((seenTypes f).flatMap inside) ∧
    (observed f).peak .variants = most width ((seenTypes f).flatMap inside) := by
  have hz := sumOf_zero (seenReasons f)
  have hy := sumOf_zero ((seenTypes f).flatMap inside)
  refine ⟨?_, ?_, ?_, ?_, ?_, ?_, observed_peak f .fields, observed_peak f .depth, observed_peak f .variants⟩
  · rw [observed_sum]; exact (congrArg (_ + ·) hz).trans (Nat.add_zero _)
  · rw [observed_sum]; exact (congrArg (_ + ·) hz).trans (Nat.add_zero _)
  · rw [observed_sum]; exact (congrArg (_ + ·) hz).trans (Nat.add_zero _)
  · rw [observed_sum]; exact (congrArg (_ + ·) hz).trans (Nat.add_zero _)
  · rw [observed_sum]; exact (congrArg (· + _) hy).trans (Nat.zero_add _)
  · rw [observed_sum]; exact (congrArg (· + _) hy).trans (Nat.zero_add _)

/-! ### Files -/

theorem replaceRetained_twice (t o : Telemetry) : replaceRetained (replaceRetained t o) o = replaceRetained t o := by
  ext x
  · simp only [replaceRetained]; split <;> rfl
  · simp only [replaceRetained]; split <;> rfl
  · rfl

/-- **C88 (refreshing).** Refreshing replaces what is seen in the file and keeps the rest, and refreshing again changes nothing. -/
theorem c88_refresh (f : File) : (∀ c, (refresh f).telemetry.sum c = if c.retained then (observed f).sum c else f.telemetry.sum c) ∧
    (∀ p, (refresh f).telemetry.peak p = if p.retained then (observed f).peak p else f.telemetry.peak p) ∧
    (refresh f).telemetry.reasons = f.telemetry.reasons ∧ refresh (refresh f) = refresh f := by
  refine ⟨fun _ => rfl, fun _ => rfl, rfl, ?_⟩
  have : observed (refresh f) = observed f := rfl
  unfold refresh at this ⊢
  simp only [File.mk.injEq, and_true, true_and]
  rw [this]
  exact replaceRetained_twice _ _

/-- What is held of a file: without equations it counts no returns, and its counts add up. -/
def Fine (f : File) : Prop := (f.equations = [] → f.telemetry.sum .outcomes = 0) ∧ Balanced f.telemetry

def Own (f : File) : Prop := f.telemetry.sum .outcomes = (methodsOf f.equations).length

def Fresh (f : File) : Prop := replaceRetained f.telemetry (observed f) = f.telemetry

theorem refresh_fresh (f : File) : Fresh (refresh f) := by
  show replaceRetained (refresh f).telemetry (observed f) = (refresh f).telemetry
  exact replaceRetained_twice _ _

theorem put_perm (f : File) : ∀ (l : List File), l.Pairwise (fun a b => a.id < b.id) →
    match l.find? (fun g => decide (g.id = f.id)) with
    | some p => ∃ m, l.Perm (p :: m) ∧ (put f l).Perm (f :: m) ∧ p ∈ l
    | none => (put f l).Perm (f :: l)
  | [], _ => .refl _
  | g :: l, h => by
    rw [List.pairwise_cons] at h
    have ih := put_perm f l h.2
    simp only [put]
    by_cases e : g.id = f.id
    · rw [if_pos e, List.find?_cons_of_pos (by simp [e])]
      exact ⟨l, .refl _, .refl _, List.mem_cons_self⟩
    · rw [if_neg e, List.find?_cons_of_neg (by simp [e])]
      by_cases e2 : f.id < g.id
      · rw [if_pos e2]
        have : l.find? (fun g => decide (g.id = f.id)) = none := by
          rw [List.find?_eq_none]
          intro x hx
          have := h.1 x hx
          simp only [decide_eq_true_eq]; omega
        rw [this]
      · rw [if_neg e2]
        cases e3 : l.find? (fun g => decide (g.id = f.id)) with
        | none =>
          rw [e3] at ih
          exact (ih.cons g).trans (List.Perm.swap f g l)
        | some p =>
          rw [e3] at ih
          obtain ⟨m, h1, h2, h3⟩ := ih
          exact ⟨g :: m, (h1.cons g).trans (List.Perm.swap p g m), (h2.cons g).trans (List.Perm.swap f g m), List.mem_cons_of_mem _ h3⟩

theorem put_ids (f : File) (l : List File) (x : File) (h : x ∈ put f l) : x = f ∨ x ∈ l := by
  induction l with
  | nil => simpa [put] using h
  | cons g l ih =>
    simp only [put] at h
    split at h
    · rcases List.mem_cons.1 h with h | h
      · exact .inl h
      · exact .inr (List.mem_cons_of_mem _ h)
    · split at h
      · rcases List.mem_cons.1 h with h | h
        · exact .inl h
        · exact .inr h
      · rcases List.mem_cons.1 h with h | h
        · exact .inr (h ▸ List.mem_cons_self)
        · rcases ih h with h | h
          · exact .inl h
          · exact .inr (List.mem_cons_of_mem _ h)

theorem put_sorted (f : File) (l : List File) (h : l.Pairwise (fun a b => a.id < b.id)) : (put f l).Pairwise (fun a b => a.id < b.id) := by
  induction l with
  | nil => simp [put]
  | cons g l ih =>
    rw [List.pairwise_cons] at h
    simp only [put]
    split
    · rename_i e
      exact List.pairwise_cons.2 ⟨fun x hx => e ▸ h.1 x hx, h.2⟩
    · split
      · rename_i e e2
        refine List.pairwise_cons.2 ⟨fun x hx => ?_, List.pairwise_cons.2 h⟩
        rcases List.mem_cons.1 hx with hx | hx
        · rw [hx]; exact e2
        · have := h.1 x hx; omega
      · rename_i e e2
        refine List.pairwise_cons.2 ⟨fun x hx => ?_, ih h.2⟩
        rcases put_ids f l x hx with hx | hx
        · rw [hx]; omega
        · exact h.1 x hx

theorem methods_perm {a b : List Equation} (h : a.Perm b) : methodsOf a = methodsOf b := by
  unfold methodsOf
  rw [stableSort_perm_eq (lin_order lin_nat) lin_nat.anti (h.map _)]

/-- **C88 (methods).** The methods of equations are each there once. -/
theorem c88_methods (es : List Equation) : (methodsOf es).Nodup ∧ ∀ m, m ∈ methodsOf es ↔ ∃ q ∈ es, q.method = m := by
  refine ⟨dedupAdj_nodup lin_nat.anti (stableSort_sorted (lin_order lin_nat) _), fun m => ?_⟩
  unfold methodsOf
  rw [mem_dedupAdj, (stableSort_perm _).mem_iff, List.mem_map]

theorem sumOf_perm {α : Type} (g : α → Nat) {a b : List α} (h : a.Perm b) : sumOf g a = sumOf g b := (h.map g).sum_nat

def count (f : File) : Nat := f.telemetry.sum .outcomes

structure Inv (e : Engine) : Prop where
  sorted : e.files.Pairwise (fun a b => a.id < b.id)
  fine : ∀ f ∈ e.files, Fine f
  own : e.spans = false → ∀ f ∈ e.files, Own f
  total : e.dirty = false → sumOf count e.files = (methodsOf (e.files.flatMap File.equations)).length

theorem refresh_count (f : File) : count (refresh f) = count f := rfl

theorem refresh_balanced (f : File) (h : Balanced f.telemetry) : Balanced (refresh f).telemetry := h

theorem counted_fine (f : File) (h : Counted f) : Fine (refresh f) ∧ Own (refresh f) := by
  refine ⟨⟨fun e => ?_, h.2⟩, h.1⟩
  have : count f = (methodsOf f.equations).length := h.1
  have e : f.equations = [] := e
  rw [e] at this
  exact this

theorem put_all {P : File → Prop} (f : File) (l : List File) (hf : P f) (h : ∀ g ∈ l, P g) : ∀ g ∈ put f l, P g := by
  intro g hg
  rcases put_ids f l g hg with hg | hg
  · rw [hg]; exact hf
  · exact h g hg

theorem replace_inv (e : Engine) (f : File) (h : Inv e) (hf : Counted f) : Inv (replace e f) := by
  obtain ⟨cf, co⟩ := counted_fine f hf
  unfold replace
  cases e1 : e.files.find? (fun g => decide (g.id = f.id)) with
  | none =>
    dsimp only
    refine ⟨put_sorted _ _ h.sorted, put_all _ _ cf h.fine, fun hs => put_all _ _ co (h.own hs), fun hd => ?_⟩
    simp only [Bool.or_eq_false_iff, decide_eq_false_iff_not, Classical.not_not, ne_eq] at hd
    have hp := put_perm (refresh f) e.files h.sorted
    have e1' : e.files.find? (fun g => decide (g.id = (refresh f).id)) = none := e1
    rw [e1'] at hp
    have hz : count (refresh f) = 0 := cf.1 hd.2
    have he : (refresh f).equations = [] := hd.2
    have hp : (put (refresh f) e.files).Perm (refresh f :: e.files) := hp
    rw [sumOf_perm _ hp, methods_perm (hp.flatMap_right _), List.flatMap_cons, he, List.nil_append, ← h.total hd.1]
    simp only [sumOf, List.map_cons, List.sum_cons]
    omega
  | some p =>
    dsimp only
    have hpm : p ∈ e.files := List.mem_of_find?_eq_some e1
    by_cases e2 : p.equations = f.equations
    · rw [if_pos e2]
      have pf := h.fine p hpm
      have hc : count (refresh (carry p f)) = count p := rfl
      have he : (refresh (carry p f)).equations = p.equations := e2.symm
      refine ⟨put_sorted _ _ h.sorted, put_all _ _ ⟨fun x => pf.1 (he ▸ x), pf.2⟩ h.fine, fun hs => put_all _ _ ?_ (h.own hs), fun hd => ?_⟩
      · have := h.own hs p hpm
        unfold Own at this ⊢
        rw [he]; exact this
      · have hp := put_perm (refresh (carry p f)) e.files h.sorted
        have e1' : e.files.find? (fun g => decide (g.id = (refresh (carry p f)).id)) = some p := e1
        rw [e1'] at hp
        obtain ⟨m, h1, h2, _⟩ := hp
        have ht := h.total hd
        rw [sumOf_perm _ h1, methods_perm (h1.flatMap_right _)] at ht
        rw [sumOf_perm _ h2, methods_perm (h2.flatMap_right _), List.flatMap_cons, he, ← List.flatMap_cons, ← ht]
        simp only [sumOf, List.map_cons, List.sum_cons]
        rw [hc]
    · rw [if_neg e2]
      exact ⟨put_sorted _ _ h.sorted, put_all _ _ cf h.fine, fun hs => put_all _ _ co (h.own hs), (fun hd => by cases hd)⟩

/-! ### Solving -/

theorem solved_count (s : Solver) (hq : Quiet s) (es : List Equation) : (solved s es).sum .outcomes = (methodsOf es).length ∧ Balanced (solved s es) := by
  have key : ∀ (l : List Nat) (t : Telemetry), Balanced t → (l.foldl (fun t m => observeReturn t (s.find es m)) t).sum .outcomes = t.sum .outcomes + l.length ∧
      Balanced (l.foldl (fun t m => observeReturn t (s.find es m)) t) := by
    intro l
    induction l with
    | nil => intro t ht; exact ⟨rfl, ht⟩
    | cons m l ih =>
      intro t ht
      obtain ⟨h1, h2⟩ := ih _ (observeReturn_balanced t (s.find es m) ht)
      refine ⟨?_, h2⟩
      rw [List.foldl_cons, h1, (observeReturn_counts _ _).1, List.length_cons]; omega
  obtain ⟨q1, q2, q3, q4⟩ := hq es
  obtain ⟨h1, h2⟩ := key (methodsOf es) (s.work es) (by
    refine ⟨by rw [q1, q2, q3], ?_⟩
    rw [q3, show (s.work es).reasons = fun _ => 0 from funext q4]
    rfl)
  exact ⟨by unfold solved; rw [h1, q1]; omega, h2⟩

theorem project_ids (s : Solver) (es : List Equation) : ∀ (b : Bool) (l : List File), (project s es b l).map (fun f => (f.id, f.equations)) = l.map (fun f => (f.id, f.equations))
  | _, [] => rfl
  | b, f :: fs => by
    simp only [project]
    split
    · simp only [List.map_cons]; rw [project_ids s es b fs]
    · simp only [List.map_cons]; rw [project_ids s es false fs]; rfl

theorem base_count (s : Solver) (es : List Equation) (b : Bool) (n : Nat) : (observeAliases (if b then solved s es else zero) n).sum .outcomes =
    if b then (solved s es).sum .outcomes else 0 := by
  cases b <;> rfl

theorem zero_balanced : Balanced zero := ⟨rfl, rfl⟩

theorem project_fine (s : Solver) (hq : Quiet s) (es : List Equation) : ∀ (b : Bool) (l : List File), (∀ f ∈ l, Fine f) → ∀ g ∈ project s es b l, Fine g
  | _, [], _, g, hg => by cases hg
  | b, f :: fs, h, g, hg => by
    simp only [project] at hg
    split at hg
    · rcases List.mem_cons.1 hg with hg | hg
      · rw [hg]; exact h f List.mem_cons_self
      · exact project_fine s hq es b fs (fun x hx => h x (List.mem_cons_of_mem _ hx)) g hg
    · rename_i hne
      rcases List.mem_cons.1 hg with hg | hg
      · rw [hg]
        refine ⟨fun e => ?_, ?_⟩
        · have e : f.equations = [] := e
          rw [e] at hne; simp at hne
        · apply refresh_balanced
          cases b
          · exact zero_balanced
          · exact (solved_count s hq es).2
      · exact project_fine s hq es false fs (fun x hx => h x (List.mem_cons_of_mem _ hx)) g hg

theorem project_sum (s : Solver) (es : List Equation) : ∀ (b : Bool) (l : List File), (∀ f ∈ l, Fine f) →
    sumOf count (project s es b l) = if b = true ∧ l.any (fun f => !f.equations.isEmpty) = true then (solved s es).sum .outcomes else 0
  | b, [], _ => by cases b <;> simp [project, sumOf]
  | b, f :: fs, h => by
    have hr := fun b => project_sum s es b fs (fun x hx => h x (List.mem_cons_of_mem _ hx))
    simp only [project]
    by_cases e : f.equations.isEmpty = true
    · rw [if_pos e]
      have hz : count f = 0 := (h f List.mem_cons_self).1 (List.isEmpty_iff.1 e)
      have := hr b
      simp only [sumOf, List.map_cons, List.sum_cons, List.any_cons, e, Bool.not_true, Bool.false_or] at this ⊢
      rw [this, hz, Nat.zero_add]
    · rw [if_neg e]
      have h2 := hr false
      simp only [Bool.false_eq_true, false_and, if_false] at h2
      have hb := base_count s es b (f.telemetry.peak .aliases)
      simp only [sumOf, List.map_cons, List.sum_cons, List.any_cons, refresh_count] at h2 ⊢
      rw [h2, Nat.add_zero]
      show (observeAliases (if b then solved s es else zero) (f.telemetry.peak .aliases)).sum .outcomes = _
      rw [hb]
      have e : f.equations.isEmpty = false := by simpa using e
      simp [e]

theorem flat_owners (l : List File) : (l.filter (fun f => !f.equations.isEmpty)).flatMap File.equations = l.flatMap File.equations := by
  induction l with
  | nil => rfl
  | cons f l ih =>
    by_cases e : f.equations.isEmpty = true
    · rw [List.filter_cons_of_neg (by simp [e]), ih, List.flatMap_cons, List.isEmpty_iff.1 e, List.nil_append]
    · rw [List.filter_cons_of_pos (by simpa using e), List.flatMap_cons, List.flatMap_cons, ih]

theorem sum_owners (l : List File) (h : ∀ f ∈ l, Fine f) : sumOf count l = sumOf count (l.filter (fun f => !f.equations.isEmpty)) := by
  induction l with
  | nil => rfl
  | cons f l ih =>
    have ih := ih (fun x hx => h x (List.mem_cons_of_mem _ hx))
    by_cases e : f.equations.isEmpty = true
    · rw [List.filter_cons_of_neg (by simp [e]), ← ih]
      have hz : count f = 0 := (h f List.mem_cons_self).1 (List.isEmpty_iff.1 e)
      simp only [sumOf, List.map_cons, List.sum_cons]; omega
    · rw [List.filter_cons_of_pos (by simpa using e)]
      simp only [sumOf, List.map_cons, List.sum_cons] at ih ⊢; omega

theorem project_sorted (s : Solver) (es : List Equation) (b : Bool) (l : List File) (h : l.Pairwise (fun a b => a.id < b.id)) :
    (project s es b l).Pairwise (fun a b => a.id < b.id) := by
  have h2 : (l.map (fun f => (f.id, f.equations))).Pairwise (fun a b => a.1 < b.1) := List.pairwise_map.2 h
  rw [← project_ids s es b l] at h2
  rw [List.pairwise_map] at h2
  exact h2

theorem project_equations (s : Solver) (es : List Equation) (b : Bool) (l : List File) : (project s es b l).flatMap File.equations = l.flatMap File.equations := by
  have h : ∀ l : List File, l.flatMap File.equations = (l.map (fun f => (f.id, f.equations))).flatMap (·.2) := by
    intro l; rw [List.flatMap_map]
  rw [h, project_ids, ← h]

theorem project_own (s : Solver) (hq : Quiet s) (l : List File) (o : File) (h : ∀ f ∈ l, Fine f) (hl : l.filter (fun f => !f.equations.isEmpty) = [o]) :
    ∀ g ∈ project s o.equations true l, Own g := by
  have none : ∀ (b : Bool) (l : List File), (∀ f ∈ l, Fine f) → l.filter (fun f => !f.equations.isEmpty) = [] → ∀ g ∈ project s o.equations b l, Own g := by
    intro b l
    induction l with
    | nil => intro _ _ g hg; cases hg
    | cons f l ih =>
      intro hf hl g hg
      have e : f.equations.isEmpty = true := by
        by_cases e : f.equations.isEmpty = true
        · exact e
        · rw [List.filter_cons_of_pos (by simpa using e)] at hl; cases hl
      rw [List.filter_cons_of_neg (by simp [e])] at hl
      simp only [project, e, if_true] at hg
      rcases List.mem_cons.1 hg with hg | hg
      · rw [hg]
        unfold Own
        rw [(hf f List.mem_cons_self).1 (List.isEmpty_iff.1 e), List.isEmpty_iff.1 e]; rfl
      · exact ih (fun x hx => hf x (List.mem_cons_of_mem _ hx)) hl g hg
  induction l with
  | nil => cases hl
  | cons f l ih =>
    intro g hg
    have hfs : ∀ x ∈ l, Fine x := fun x hx => h x (List.mem_cons_of_mem _ hx)
    by_cases e : f.equations.isEmpty = true
    · rw [List.filter_cons_of_neg (by simp [e])] at hl
      simp only [project, e, if_true] at hg
      rcases List.mem_cons.1 hg with hg | hg
      · rw [hg]
        unfold Own
        rw [(h f List.mem_cons_self).1 (List.isEmpty_iff.1 e), List.isEmpty_iff.1 e]; rfl
      · exact ih hfs hl g hg
    · rw [List.filter_cons_of_pos (by simpa using e)] at hl
      injection hl with h1 h2
      subst h1
      simp only [project] at hg
      rw [if_neg e] at hg
      rcases List.mem_cons.1 hg with hg | hg
      · rw [hg]
        exact (solved_count s hq f.equations).1
      · exact none false l hfs h2 g hg

theorem resolve_inv (s : Solver) (hq : Quiet s) (e : Engine) (h : Inv e) : Inv (resolve s e) := by
  unfold resolve
  by_cases hd : e.dirty = true
  · rw [if_pos hd]
    dsimp only
    split
    · rename_i hc
      refine ⟨h.sorted, h.fine, h.own, fun _ => ?_⟩
      show sumOf count e.files = (methodsOf (e.files.flatMap File.equations)).length
      obtain ⟨o, ho⟩ := List.length_eq_one_iff.1 hc.1
      have hm : o ∈ e.files := List.mem_of_mem_filter (ho ▸ List.mem_singleton_self o)
      rw [sum_owners _ h.fine, ← flat_owners, ho]
      have := h.own hc.2.1 o hm
      unfold Own at this
      simp only [sumOf, List.map_cons, List.map_nil, List.sum_cons, List.sum_nil, List.flatMap_cons, List.flatMap_nil, List.append_nil, Nat.add_zero]
      exact this
    · split
      · rename_i hc he
        have ho := List.isEmpty_iff.1 he
        refine ⟨h.sorted, h.fine, fun _ f hf => ?_, fun _ => ?_⟩
        · have hfe : f.equations.isEmpty = true := by
            by_cases x : f.equations.isEmpty = true
            · exact x
            · have : f ∈ e.files.filter (fun f => !f.equations.isEmpty) := List.mem_filter.2 ⟨hf, by simpa using x⟩
              rw [ho] at this; cases this
          unfold Own
          rw [(h.fine f hf).1 (List.isEmpty_iff.1 hfe), List.isEmpty_iff.1 hfe]; rfl
        · show sumOf count e.files = (methodsOf (e.files.flatMap File.equations)).length
          rw [sum_owners _ h.fine, ← flat_owners, ho]; rfl
      · rename_i hc he
        refine ⟨project_sorted _ _ _ _ h.sorted, project_fine s hq _ _ _ h.fine, fun hs => ?_, fun _ => ?_⟩
        · have hs : ¬ 1 < (e.files.filter (fun f => !f.equations.isEmpty)).length := by simpa using hs
          cases ho : e.files.filter (fun f => !f.equations.isEmpty) with
          | nil => rw [ho] at he; simp at he
          | cons o os =>
            cases os with
            | nil =>
              have := project_own s hq e.files o h.fine ho
              simpa using this
            | cons _ _ => rw [ho] at hs; simp at hs
        · show sumOf count (project s _ true e.files) = (methodsOf ((project s _ true e.files).flatMap File.equations)).length
          rw [project_sum s _ true e.files h.fine, project_equations, flat_owners, if_pos, (solved_count s hq _).1]
          refine ⟨rfl, ?_⟩
          rw [List.any_eq_true]
          cases ho : e.files.filter (fun f => !f.equations.isEmpty) with
          | nil => rw [ho] at he; simp at he
          | cons o os =>
            have : o ∈ e.files.filter (fun f => !f.equations.isEmpty) := ho ▸ List.mem_cons_self
            exact ⟨o, (List.mem_filter.1 this).1, (List.mem_filter.1 this).2⟩
  · rw [if_neg hd]; exact h

theorem constants_inv (e : Engine) (id : Nat) (types : List (Option Nat × Ty)) (reads : List Ty) (h : Inv e) : Inv (constants e id types reads) := by
  have hm : ∀ (l : List File), (l.map (fun f => if f.id = id then { f with types := types, reads := reads } else f)).map (fun f => (f.id, f.equations, f.telemetry)) =
      l.map (fun f => (f.id, f.equations, f.telemetry)) := by
    intro l
    rw [List.map_map]
    apply List.map_congr_left
    intro f _
    simp only [Function.comp]
    split <;> rfl
  have hp : ∀ (P : List Equation → Telemetry → Prop), (∀ f ∈ e.files, P f.equations f.telemetry) → ∀ f ∈ (constants e id types reads).files, P f.equations f.telemetry := by
    intro P hP f hf
    simp only [constants, List.mem_map] at hf
    obtain ⟨g, hg, rfl⟩ := hf
    split <;> exact hP g hg
  refine ⟨?_, hp (fun q t => (q = [] → t.sum .outcomes = 0) ∧ Balanced t) h.fine, fun hs => hp (fun q t => t.sum .outcomes = (methodsOf q).length) (h.own hs), fun hd => ?_⟩
  · have h2 : (e.files.map (fun f => (f.id, f.equations, f.telemetry))).Pairwise (fun a b => a.1 < b.1) := List.pairwise_map.2 h.sorted
    rw [← hm] at h2
    rw [List.pairwise_map] at h2
    exact h2
  · simp only [constants, Bool.or_eq_false_iff] at hd
    have h1 : ∀ l : List File, sumOf count l = sumOf (fun x : Nat × List Equation × Telemetry => x.2.2.sum .outcomes) (l.map (fun f => (f.id, f.equations, f.telemetry))) := by
      intro l; rw [sumOf_map]; rfl
    have h2 : ∀ l : List File, l.flatMap File.equations = (l.map (fun f => (f.id, f.equations, f.telemetry))).flatMap (fun x => x.2.1) := by
      intro l; rw [List.flatMap_map]
    have := h.total hd.1
    rw [h1, h2, ← hm] at this
    rw [h1, h2]
    exact this

theorem reach_inv {s : Solver} (hq : Quiet s) {k : Bool} {e : Engine} (h : Reach s k e) : Inv e := by
  induction h with
  | start => exact ⟨.nil, (fun f hf => by cases hf), (fun _ f hf => by cases hf), fun _ => rfl⟩
  | replace e f _ hf ih => exact replace_inv e f ih hf
  | resolve e _ ih => exact resolve_inv s hq e ih
  | constants e id ts rs _ _ ih => exact constants_inv e id ts rs ih

/-- **C88 (every method once).** After solving, the files together count every method that has an equation exactly once, however files were
replaced and solved before; in every file returns are proven or unknown, and every unknown one has a reason. -/
theorem c88_once (s : Solver) (hq : Quiet s) (k : Bool) (e : Engine) (h : Reach s k e) :
    (e.dirty = false → sumOf (fun f => f.telemetry.sum .outcomes) e.files = (methodsOf (e.files.flatMap File.equations)).length) ∧
    (∀ f ∈ e.files, Balanced f.telemetry) ∧ (resolve s e).dirty = false := by
  have hi := reach_inv hq h
  refine ⟨hi.total, fun f hf => (hi.fine f hf).2, ?_⟩
  unfold resolve
  by_cases hd : e.dirty = true
  · rw [if_pos hd]
    dsimp only
    split
    · rfl
    · split <;> rfl
  · rw [if_neg hd]; simpa using hd

theorem project_fresh (s : Solver) (es : List Equation) : ∀ (b : Bool) (l : List File), (∀ f ∈ l, Fresh f) → ∀ g ∈ project s es b l, Fresh g
  | _, [], _, g, hg => by cases hg
  | b, f :: fs, h, g, hg => by
    simp only [project] at hg
    split at hg
    · rcases List.mem_cons.1 hg with hg | hg
      · rw [hg]; exact h f List.mem_cons_self
      · exact project_fresh s es b fs (fun x hx => h x (List.mem_cons_of_mem _ hx)) g hg
    · rcases List.mem_cons.1 hg with hg | hg
      · rw [hg]; exact refresh_fresh _
      · exact project_fresh s es false fs (fun x hx => h x (List.mem_cons_of_mem _ hx)) g hg

/-- **C88 (shapes of files).** As long as no constants are solved, what every file counts of shapes is what is in its facts now. -/
theorem c88_fresh (s : Solver) (e : Engine) (h : Reach s false e) : ∀ f ∈ e.files, (∀ c, c.retained = true → f.telemetry.sum c = (observed f).sum c) ∧
    ∀ p, p.retained = true → f.telemetry.peak p = (observed f).peak p := by
  have key : ∀ f ∈ e.files, Fresh f := by
    induction h with
    | start => intro f hf; cases hf
    | replace e f _ _ ih =>
      unfold replace
      cases e.files.find? (fun g => decide (g.id = f.id)) with
      | none => exact put_all _ _ (refresh_fresh _) ih
      | some p =>
        dsimp only
        split
        · exact put_all _ _ (refresh_fresh _) ih
        · exact put_all _ _ (refresh_fresh _) ih
    | resolve e _ ih =>
      unfold resolve
      split
      · dsimp only
        split
        · exact ih
        · split
          · exact ih
          · exact project_fresh s _ _ _ ih
      · exact ih
    | constants e _ _ _ hk _ _ => cases hk
  intro f hf
  have h := key f hf
  refine ⟨fun c hc => ?_, fun p hp => ?_⟩
  · have := congrArg (fun t => t.sum c) h
    simp only [replaceRetained, hc, if_true] at this
    exact this.symm
  · have := congrArg (fun t => t.peak p) h
    simp only [replaceRetained, hp, if_true] at this
    exact this.symm

/-! ### Cases -/

def noWork : Solver := ⟨fun _ _ => .unknown 2, fun _ => zero⟩
def shapeOf (n d : Nat) : Ty := .shape ((List.range n).map (fun i => (⟨false, [i]⟩, false, .unknown))) none false false d
def telemetryOf (n aliases : Nat) : Telemetry := ⟨fun | .outcomes => n | .proven => n | _ => 0, fun | .aliases => aliases | _ => 0, fun _ => 0⟩
def plain (id : Nat) (ms : List Nat) (aliases : Nat) (types : List (Option Nat × Ty)) : File :=
  ⟨id, ms.map (fun m => ⟨m, false, 0⟩), ms.map (fun m => (m, .proven (.cls [1]))), types, [], [], [], telemetryOf ms.length aliases⟩

def two : Engine := resolve noWork (replace (replace ⟨[], false, false⟩ (plain 1 [10, 11] 0 [])) (plain 2 [11, 12] 0 [(none, shapeOf 2 1)]))

theorem c88_example : two.files.map (fun f => (f.id, f.telemetry.sum .outcomes, f.telemetry.sum .shapes, f.telemetry.sum .fields, f.telemetry.peak .depth)) =
      [(1, 3, 0, 0, 0), (2, 0, 1, 2, 1)] ∧ (mergeAll zero (two.files.map File.telemetry)).map (fun t => (t.sum .outcomes, t.reasons 2)) = some (3, 3) ∧
    (observeType zero (.union [shapeOf 2 1, .array [shapeOf 3 1], shapeOf 1 4])).sum .unions = 1 ∧
    (observeType zero (.union [shapeOf 2 1, .array [shapeOf 3 1], shapeOf 1 4])).sum .variants = 2 ∧
    (observeType zero (.union [shapeOf 2 1, .array [shapeOf 3 1], shapeOf 1 4])).sum .shapes = 3 ∧
    (observeType zero (.union [shapeOf 2 1, .array [shapeOf 3 1], shapeOf 1 4])).peak .depth = 4 := by
  decide +kernel

/-- **C88 fails for one file**: after solving, the first file counts the methods of all files, and the other files count none of theirs; the
report of one file therefore counts the methods of other files, or none. -/
theorem c88_file_fails : two.files.map (fun f => (f.telemetry.sum .outcomes, (methodsOf f.equations).length)) = [(3, 2), (0, 2)] := by
  decide +kernel

/-- **C88 fails for aliases**: when a file is replaced and its methods stay the same, the old number of aliases stays, even for a file without
methods, and whether it grows or shrinks. -/
theorem c88_aliases_fails : (replace (replace ⟨[], false, false⟩ (plain 1 [] 5 [])) (plain 1 [] 0 [])).files.map (fun f => f.telemetry.peak .aliases) = [5] ∧
    (replace (replace ⟨[], false, false⟩ (plain 1 [] 0 [])) (plain 1 [] 5 [])).files.map (fun f => f.telemetry.peak .aliases) = [0] := by
  decide +kernel

/-- **C88 fails for constants**: types that solving constants changes are not counted again, when no method depends on constants. -/
theorem c88_constants_fails : (resolve noWork (constants (replace ⟨[], false, false⟩ (plain 1 [] 0 [(none, .unknown)])) 1 [(none, shapeOf 2 1)] [])).files.map
    (fun f => (f.telemetry.sum .shapes, (observed f).sum .shapes)) = [(0, 1)] := by
  decide +kernel

end Verif.Telemetry
