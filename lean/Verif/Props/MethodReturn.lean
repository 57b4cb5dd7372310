import Verif.Spec.MethodReturn
import Verif.Props.RbsTypes
import Verif.Props.ShapeReads
/-!
C69: the type given to a method call.
-/
namespace Verif.MethodReturn
open Verif.Types
open Verif.RbsTypes (Loader Reading Rooted Sat Bounded Closed paramName Rbs returnTy returnTyWith returnTyWith_eq substitution conv convWith
  conv_sound convWith_sound Binds Method)
open Verif.ShapeReads (KeysOf ValuesOf Tidy shapeOnly)
open Verif.HigherOrder (desc_union_of desc_of_union)
open Verif.Yard (Unicode Text)

variable {W : World} {Calls : W.V → Name → W.V → Prop} {U : Unicode}

/-! ### signatures -/

theorem returnType_some {L : Loader} {c m : Name} {s : Bool} {t : Rbs} (h : L.returnType c m s = some t) :
    ∃ meth p, L.methods c s m = some meth ∧ p ∈ meth.overloads ∧ p.2 = t := by
  simp only [Loader.returnType, Option.bind_eq_some_iff, Option.map_eq_some_iff] at h
  obtain ⟨meth, hm, p, hp, e⟩ := h
  exact ⟨meth, p, hm, List.mem_of_mem_head? (by rw [hp]; rfl), e⟩

theorem plain_sound {L : Loader} {c m : Name} {s : Bool} {u : Ty} (ho : Obeys W Calls U L) (hc : Clear L c s m 0)
    (h : returnTy U L c m s = some u) {v x : W.V} (hv : Receiver W s c v) (hx : Calls v m x) : Desc W u x := by
  simp only [returnTy, Option.map_eq_some_iff] at h
  obtain ⟨t, ht, rfl⟩ := h
  obtain ⟨meth, p0, hm, hp0, rfl⟩ := returnType_some ht
  obtain ⟨t, hall⟩ := hc meth hm
  obtain ⟨p, hp, R, hR, hs, -⟩ := ho c s m meth [] v x hm (.plain hv) hx
  have h1 := hall p hp
  rw [if_pos rfl] at h1
  rw [(hall p0 hp0).1]
  rw [h1.1] at hs
  exact conv_sound hR t h1.2 x hs

theorem substitution_some {params : List Text} {args : List Ty} {n : Text} {t : Ty} (h : substitution params args n = some t) :
    ∃ i : Nat, ∃ q, params[i]? = some q ∧ args[i]? = some t ∧ paramName q = n := by
  simp only [substitution, Option.map_eq_some_iff] at h
  obtain ⟨⟨q, t'⟩, hf, rfl⟩ := h
  have hm := List.mem_of_find?_eq_some hf
  have hp := List.find?_some hf
  obtain ⟨i, hi⟩ := List.mem_iff_getElem?.mp (List.mem_reverse.mp hm)
  rw [List.getElem?_zip_eq_some] at hi
  exact ⟨i, q, hi.1, hi.2, by simpa using hp⟩

theorem substitution_bound (params : List Text) (args : List Ty) (n : Text) :
    substitution params args n ≠ none ↔ n ∈ (params.take args.length).map paramName := by
  constructor
  · intro h
    obtain ⟨t, ht⟩ := Option.ne_none_iff_exists'.mp h
    obtain ⟨i, q, hq, ha, rfl⟩ := substitution_some ht
    refine List.mem_map.mpr ⟨q, ?_, rfl⟩
    refine List.mem_iff_getElem?.mpr ⟨i, ?_⟩
    have : i < args.length := (List.getElem?_eq_some_iff.mp ha).1
    rw [List.getElem?_take, if_pos this, hq]
  · intro h hn
    obtain ⟨q, hq, rfl⟩ := List.mem_map.mp h
    obtain ⟨i, hi⟩ := List.mem_iff_getElem?.mp hq
    rw [List.getElem?_take] at hi
    split at hi
    · next hlt =>
      have ha : args[i]? = some args[i] := List.getElem?_eq_getElem hlt
      simp only [substitution, Option.map_eq_none_iff, List.find?_eq_none] at hn
      have := hn (q, args[i]) (List.mem_reverse.mpr (List.mem_iff_getElem?.mpr ⟨i, List.getElem?_zip_eq_some.mpr ⟨hi, ha⟩⟩))
      simp at this
    · cases hi

theorem generic_sound {L : Loader} {c m : Name} {s : Bool} {u : Ty} {args : List Ty} (ho : Obeys W Calls U L) (hne : args ≠ [])
    (hc : Clear L c s m args.length) (h : returnTyWith U L c m s args = some u) {v x : W.V} (hv : Generic W c s (args.map (Desc W)) v)
    (hx : Calls v m x) : Desc W u x := by
  rw [returnTyWith_eq] at h
  simp only [Option.map_eq_some_iff] at h
  obtain ⟨t, ht, rfl⟩ := h
  obtain ⟨meth, p0, hm, hp0, rfl⟩ := returnType_some ht
  obtain ⟨t, hall⟩ := hc meth hm
  obtain ⟨p, hp, R, hR, hs, hP⟩ := ho c s m meth _ v x hm hv hx
  have h1 := hall p hp
  rw [if_neg (by simpa using hne)] at h1
  rw [(hall p0 hp0).1]
  rw [h1.1] at hs
  refine convWith_sound hR (σ := substitution (L.params c) args) ?_ t ?_ x hs
  · intro n t' y hn hy
    obtain ⟨i, q, hq, ha, rfl⟩ := substitution_some hn
    exact hP i q (Desc W t') y hq (by rw [List.getElem?_map, ha]; rfl) hy
  · have : (fun n => substitution (L.params c) args n ≠ none) = fun n => n ∈ ((L.params c).take args.length).map paramName :=
      funext fun n => propext (substitution_bound _ _ n)
    rw [this]
    exact h1.2

/-! ### names -/

theorem simpleName_self {n : Name} (h : 58 ∉ n) : simpleName n = n := by
  unfold simpleName
  have key : ∀ l : Name, 58 ∉ l → l.takeWhile (fun c => decide (c ≠ 58)) = l := by
    intro l hl
    induction l with
    | nil => rfl
    | cons a l ih => rw [List.takeWhile_cons_of_pos (by simpa using fun e : a = 58 => hl (by simp [e])), ih (fun hm => hl (by simp [hm]))]
  rw [key _ (fun hm => h (List.mem_reverse.mp hm)), List.reverse_reverse]

theorem simpleName_last {pre k : Name} (h : 58 ∉ k) : simpleName (pre ++ 58 :: k) = k := by
  unfold simpleName
  rw [List.reverse_append, List.reverse_cons, List.append_assoc, List.takeWhile_append_of_pos]
  · simp
  · intro c hc
    have : c ≠ 58 := fun e => h (e ▸ List.mem_reverse.mp hc)
    simpa using this

theorem simpleName_cases (n : Name) : (58 ∉ n ∧ simpleName n = n) ∨ ∃ pre k, n = pre ++ 58 :: k ∧ 58 ∉ k ∧ simpleName n = k := by
  by_cases h : 58 ∈ n
  · obtain ⟨a, b, rfl, hb⟩ : ∃ a b, n = a ++ 58 :: b ∧ 58 ∉ b := by
      obtain ⟨a, b, e, ha⟩ := List.eq_append_cons_of_mem (List.mem_reverse.mpr h)
      refine ⟨b.reverse, a.reverse, ?_, fun hm => ha (List.mem_reverse.mp hm)⟩
      have := congrArg List.reverse e
      simpa using this
    exact .inr ⟨a, b, rfl, hb, simpleName_last hb⟩
  · exact .inl ⟨h, simpleName_self h⟩

theorem named_sound {L : Loader} {n m : Name} {s : Bool} {u : Ty} (ho : Obeys W Calls U L) (hb : ByPath L n s m)
    (h : rbsNamed U L m s n = some u) {v x : W.V} (hv : Receiver W s n v) (hx : Calls v m x) : Desc W u x := by
  have none_iff : ∀ c, returnTy U L c m s = none ↔ L.returnType c m s = none := fun c => by simp [returnTy]
  have one : [n].findSome? (fun c => returnTy U L c m s) = some u → returnTy U L n m s = some u := by
    intro h
    simp only [List.findSome?] at h
    split at h
    · next e => rw [e]; exact h
    · cases h
  have fst : returnTy U L n m s = some u := by
    unfold rbsNamed classNames at h
    split at h
    · simp at h
    · rcases simpleName_cases n with ⟨-, e⟩ | ⟨pre, k, e, hk, hs⟩
      · rw [if_pos e] at h
        exact one h
      · split at h
        · exact one h
        · simp only [List.findSome?] at h
          split at h
          · next hr => rw [hr]; exact h
          · next hr =>
            split at h
            · next b hr2 =>
              rcases hb.2 pre k e hk with h1 | h1
              · exact absurd ((none_iff n).mp hr) h1
              · rw [hs, (none_iff k).mpr h1] at hr2; cases hr2
            · cases h
  exact plain_sound ho hb.1 fst hv hx

/-! ### one receiver -/

theorem fromOptional_proven {t : Option Ty} {r : Reason} {u : Ty} (h : fromOptional t r = .proven u) : t = some u ∧ unionUnknown u = false := by
  unfold fromOptional at h
  split at h
  · cases h
  · split at h
    · cases h
    · unfold proven at h
      split at h
      · cases h
      · next hf => cases h; exact ⟨rfl, by simpa using hf⟩

theorem proven_proven {t u : Ty} (h : proven t = .proven u) : t = u ∧ unionUnknown u = false := by
  unfold proven at h
  split at h
  · cases h
  · next hf => cases h; exact ⟨rfl, by simpa using hf⟩

theorem litClass_receiver (l : Lit) : Receiver W false (litClass l) (W.lit l) := by
  unfold Receiver litClass
  rw [if_neg (by simp)]
  cases h : l.isString
  · exact .inl ((W.symbol l).mpr h)
  · exact .inl ((W.string l).mpr h)

theorem litClass_plain (l : Lit) : 58 ∉ litClass l := by
  unfold litClass
  split <;> decide

/-- What the value is, when it is asked about in a namespace. -/
theorem namespace_receiver {t : Ty} {v : W.V} (hd : Desc W t v) {p : Bool × Name} (hp : p ∈ namespaces t) :
    Receiver W p.1 p.2 v ∨ (p.1 = false ∧ p.2 = []) := by
  have inst : ∀ n, (W.inst n v ∨ W.modInst n v) → p ∈ instanceSpaces n → Receiver W p.1 p.2 v ∨ (p.1 = false ∧ p.2 = []) := by
    intro n hv hp
    unfold instanceSpaces at hp
    split at hp
    · simp only [List.mem_cons, List.not_mem_nil, or_false] at hp
      rcases hp with rfl | rfl
      · exact .inl (by simpa [Receiver] using hv)
      · exact .inr ⟨rfl, rfl⟩
    · simp only [List.mem_cons, List.not_mem_nil, or_false] at hp
      subst hp
      exact .inl (by simpa [Receiver] using hv)
  cases t <;> simp only [namespaces, List.mem_cons, List.not_mem_nil, or_false] at hp
  · exact inst _ (.inl (by simpa [Desc] using hd)) hp
  · exact inst _ (.inr (by simpa [Desc] using hd)) hp
  · subst hp; exact .inl (.inl (by simpa [Desc] using hd))
  · subst hp; exact .inl (.inr (by simpa [Desc] using hd))
  · next l =>
    have e : v = W.lit l := by simpa [Desc] using hd
    subst e
    refine inst _ ?_ hp
    have := litClass_receiver (W := W) l
    simpa [Receiver] using this

theorem generic_type_sound {L : Loader} {m : Name} {t u : Ty} (ho : Obeys W Calls U L) (hD : Direct L m t) (h : generic U L m t = some (some u))
    {v x : W.V} (hd : Desc W t v) (hx : Calls v m x) : Desc W u x := by
  have hash : ∀ ks vs, Clear L (nameOf "Hash") false m 2 → hashReturn U L m ks vs = some u → Desc W (.hash ks vs) v → Desc W u x := by
    intro ks vs hc hh hdv
    rw [Desc] at hdv
    refine generic_sound ho (args := [mkUnion ks, mkUnion vs]) (by simp) hc hh ?_ hx
    exact .hash hdv.1 fun k y he => ⟨desc_union_of (hdv.2 k y he).1, desc_union_of (hdv.2 k y he).2⟩
  cases t <;> simp only [generic, Option.some.injEq] at h
  any_goals cases h
  · next ts =>
    obtain ⟨hlen, hc⟩ := hD
    match ts, hlen with
    | [e], _ =>
      rw [Desc] at hd
      exact generic_sound ho (args := [e]) (by simp) hc h (.array hd.1 fun y hy => by simpa [DescAny] using hd.2 y hy) hx
  · next ks vs => exact hash ks vs hD h hd
  · next fs r o z d =>
    simp only [Option.map_eq_some_iff] at h
    obtain ⟨g, hg, h⟩ := h
    have hdg := c43_generic_hash_sound hg hd
    split at h
    · next ks vs => exact hash ks vs hD h hdg
    · cases h

theorem lookUp_sound {E : Env} {acc : Access} {m : Name} {t u : Ty} (ho : Obeys W Calls U E.rbs)
    (hq : ∀ q, E.query = some q → QueryTrue W Calls (q acc)) (hnew : m ≠ nameOf "new" ∨ ∀ n, t ≠ .clsRef n) (hD : Direct E.rbs m t)
    (h : lookUp U E acc m t = .proven u) {v x : W.V} (hd : Desc W t v) (hx : Calls v m x) : Desc W u x := by
  unfold lookUp at h
  split at h
  · cases h
  · next u' hg =>
    obtain ⟨e, -⟩ := fromOptional_proven h
    cases e
    exact generic_type_sound ho hD hg hd hx
  · next hg =>
    split at h
    · cases h
    · split at h
      · next u' ha =>
        obtain ⟨e, -⟩ := fromOptional_proven h
        cases e
        unfold asked at ha
        split at ha
        · cases ha
        · next q hqe =>
          obtain ⟨p, hp, hpq⟩ := List.exists_of_findSome?_eq_some ha
          exact hq q hqe p.1 p.2 m u v x hpq (namespace_receiver hd hp) hx
      · next hask =>
        clear hask
        obtain ⟨e, -⟩ := fromOptional_proven h
        clear h
        cases t <;> simp only [rbsReturn] at e
        · exact named_sound ho hD e (by simpa [Receiver] using Or.inl (by simpa [Desc] using hd)) hx
        · exact named_sound ho hD e (by simpa [Receiver] using Or.inr (by simpa [Desc] using hd)) hx
        · rcases hnew with hn | hn
          · exact named_sound ho (hD.resolve_left hn) e (Or.inl (by simpa [Desc] using hd)) hx
          · exact absurd rfl (hn _)
        · exact named_sound ho hD e (Or.inr (by simpa [Desc] using hd)) hx
        · have ev := hd
          simp only [Desc] at ev
          subst ev
          refine named_sound ho ⟨hD, fun pre k e' hk => ?_⟩ e (litClass_receiver _) hx
          refine absurd ?_ (litClass_plain ‹Lit›)
          unfold litClass
          rw [e']
          simp
        all_goals (rw [hg] at e; cases e)

theorem afterShapes_sound {E : Env} {acc : Access} {m : Name} {t u : Ty} (ho : Obeys W Calls U E.rbs)
    (hq : ∀ q, E.query = some q → QueryTrue W Calls (q acc)) (hn : NewMakes W Calls) (hD : Direct E.rbs m t)
    (h : afterShapes U E acc m t = .proven u) {v x : W.V} (hd : Desc W t v) (hx : Calls v m x) : Desc W u x := by
  unfold afterShapes at h
  split at h
  · next n =>
    split at h
    · next hm =>
      obtain ⟨rfl, -⟩ := proven_proven h
      subst hm
      simp only [Desc] at hd ⊢
      exact hn n v x hd hx
    · next hm => exact lookUp_sound ho hq (.inl hm) hD h hd hx
  · next hne => exact lookUp_sound ho hq (.inr hne) hD h hd hx

theorem callOne_sound {E : Env} {acc : Access} {m : Name} {t u : Ty} (ho : Obeys W Calls U E.rbs)
    (hq : ∀ q, E.query = some q → QueryTrue W Calls (q acc)) (hn : NewMakes W Calls) (hh : HashCalls W Calls) (ht : Tidy W t)
    (hD : Direct E.rbs m t) (h : callOne U E acc m t = .proven u) {v x : W.V} (hd : Desc W t v) (hx : Calls v m x) : Desc W u x := by
  unfold callOne at h
  split at h
  · cases h
  · split at h
    · next hso =>
      split at h
      · next o hao =>
        have hv := ShapeReads.shapeOnly_hash t hso v hd
        have : ∃ u', o = .ok u' ∧ u' = u := by
          cases o with
          | ok a => exact ⟨a, rfl, (proven_proven h).1⟩
          | err => cases h
          | panic => cases h
        obtain ⟨_, rfl, rfl⟩ := this
        unfold argumentFree at hao
        split at hao
        · next hm => subst hm; exact (ShapeReads.c65_keys (by simpa using hao) ht hd (hh.keys v x hv hx)).1
        · split at hao
          · next hm => subst hm; exact (ShapeReads.c65_values (by simpa using hao) ht hd (hh.values v x hv hx)).1
          · split at hao
            · next hm =>
              simp only [Option.some.injEq, ShapeReads.Out.ok.injEq] at hao
              subst hao
              rw [enumeratorTy, Desc]
              exact hh.each v m x hv (by simpa using hm) hx
            · cases hao
      · split at h
        · cases h
        · exact afterShapes_sound ho hq hn hD h hd hx
    · exact afterShapes_sound ho hq hn hD h hd hx

/-! ### unions -/

theorem callAll_some {E : Env} {acc : Access} {m : Name} {ts us : List Ty} (h : callAll U E acc m ts = some (some us)) :
    List.Forall₂ (fun t u => call U E acc m t = .proven u) ts us := by
  induction ts generalizing us with
  | nil => rw [callAll] at h; cases h; exact .nil
  | cons t l ih =>
    rw [callAll] at h
    split at h
    · cases h
    · cases h
    · next u hu =>
      simp only [Option.map_eq_some_iff] at h
      obtain ⟨r, hr, us', rfl, rfl⟩ := h
      exact .cons hu (ih hr)

theorem call_simple {E : Env} {acc : Access} {m : Name} {t : Ty} (h : Simple t) : call U E acc m t = callOne U E acc m t := by
  cases t
  case union => exact absurd rfl (h _)
  all_goals (rw [call]; intro ts e; cases e)

theorem branch_simple {t x : Ty} (h : Branch t x) : Simple x := by
  induction h with
  | self h => exact h
  | member _ _ ih => exact ih

/-- C69 (partial): the type given to a call describes what the call gives.  Missing, because it is false (see the counterexamples):
arrays with several element types, methods whose signatures differ or are not read correctly (C68), classes that are only known to RBS
by the last name of their path, classes with a `new` of their own, and classes the project has changed. -/
theorem c69_sound_partial {E : Env} {acc : Access} {m : Name} (ho : Obeys W Calls U E.rbs)
    (hq : ∀ q, E.query = some q → QueryTrue W Calls (q acc)) (hn : NewMakes W Calls) (hh : HashCalls W Calls) :
    ∀ {t u : Ty}, Tidy W t → (∀ b, Branch t b → Direct E.rbs m b) → call U E acc m t = .proven u →
      ∀ {v x : W.V}, Desc W t v → Calls v m x → Desc W u x := by
  have main : ∀ t u, Tidy W t → (∀ b, Branch t b → Direct E.rbs m b) → call U E acc m t = .proven u →
      ∀ v x : W.V, Desc W t v → Calls v m x → Desc W u x := by
    have simple : ∀ t, Simple t → ∀ u, Tidy W t → (∀ b, Branch t b → Direct E.rbs m b) → call U E acc m t = .proven u →
        ∀ v x : W.V, Desc W t v → Calls v m x → Desc W u x := by
      intro t hs u ht hb h v x hd hx
      rw [call_simple hs] at h
      exact callOne_sound ho hq hn hh ht (hb t (.self hs)) h hd hx
    have union : ∀ ts : List Ty, (∀ t ∈ ts, ∀ u, Tidy W t → (∀ b, Branch t b → Direct E.rbs m b) → call U E acc m t = .proven u →
        ∀ v x : W.V, Desc W t v → Calls v m x → Desc W u x) → ∀ u, Tidy W (.union ts) → (∀ b, Branch (.union ts) b → Direct E.rbs m b) →
        call U E acc m (.union ts) = .proven u → ∀ v x : W.V, Desc W (.union ts) v → Calls v m x → Desc W u x := by
      intro ts ih u ht hb h v x hd hx
      rw [call] at h
      split at h
      · cases h
      · cases h
      · next us hus =>
        obtain ⟨e, -⟩ := fromOptional_proven h
        split at e
        · cases e
        · simp only [Option.some.injEq] at e
          subst e
          rw [Desc] at hd
          obtain ⟨t, htm, hdt⟩ := descAny_iff.mp hd
          obtain ⟨u', hu', hc⟩ := forall₂_left (callAll_some hus) htm
          cases ht with
          | union h1 h2 =>
            exact desc_union_of (descAny_iff.mpr ⟨u', hu', ih t htm u' (h1 t htm) (fun b hbb => hb b (.member htm hbb)) hc v x hdt hx⟩)
    exact Ty.ind (fun _ => simple _ (by intro us e; cases e)) (fun _ => simple _ (by intro us e; cases e))
      (fun _ => simple _ (by intro us e; cases e)) (fun _ => simple _ (by intro us e; cases e)) (fun _ => simple _ (by intro us e; cases e))
      (fun _ _ => simple _ (by intro us e; cases e)) (fun _ _ _ _ => simple _ (by intro us e; cases e))
      (fun _ _ _ _ _ _ _ => simple _ (by intro us e; cases e)) union (simple _ (by intro us e; cases e))
  intro t u ht hb h v x hd hx
  exact main t u ht hb h v x hd hx

/-! ### what a union gives -/

theorem branch_union {us : List Ty} (h : mkUnion us ≠ .unknown) (y : Ty) : Branch (mkUnion us) y ↔ ∃ w ∈ us, Branch w y := by
  have flat : (∃ x ∈ flatten us, Branch x y) ↔ ∃ w ∈ us, Branch w y := by
    constructor
    · rintro ⟨x, hx, hb⟩
      obtain ⟨w, hw, ha⟩ := mem_flatten.mp hx
      cases ha with
      | member hm => exact ⟨_, hw, .member hm hb⟩
      | self => exact ⟨x, hw, hb⟩
    · rintro ⟨w, hw, hb⟩
      cases hb with
      | self hs => exact ⟨_, mem_flatten.mpr ⟨_, hw, .self hs⟩, .self hs⟩
      | member hm hb => exact ⟨_, mem_flatten.mpr ⟨_, hw, .member hm⟩, hb⟩
  rw [mkUnion_eq] at h ⊢
  rw [← flat]
  rcases finish_cases (flatten us) with ⟨e, -⟩ | ⟨-, -, t, e, ht⟩ | ⟨-, -, -, e⟩
  · exact absurd e h
  · rw [e]
    exact ⟨fun hb => ⟨t, (ht t).mpr rfl, hb⟩, fun ⟨x, hx, hb⟩ => (ht x).mp hx ▸ hb⟩
  · rw [e]
    constructor
    · intro hb
      cases hb with
      | self hs => exact absurd rfl (hs _)
      | member hm hb => exact ⟨_, mem_canon.mp hm, hb⟩
    · rintro ⟨x, hx, hb⟩
      exact .member (mem_canon.mpr hx) hb

theorem union_proven {E : Env} {acc : Access} {m : Name} {ts : List Ty} {u : Ty} (h : call U E acc m (.union ts) = .proven u) :
    ∃ us, List.Forall₂ (fun t u => call U E acc m t = .proven u) ts us ∧ u = mkUnion us ∧ mkUnion us ≠ .unknown := by
  rw [call] at h
  split at h
  · cases h
  · cases h
  · next us hus =>
    obtain ⟨e, hu⟩ := fromOptional_proven h
    split at e
    · cases e
    · simp only [Option.some.injEq] at e
      subst e
      refine ⟨us, callAll_some hus, rfl, fun e => ?_⟩
      rw [e] at hu
      simp [unionUnknown, Ty.isUnknown] at hu

/-- C69: a union gets a type only when each of its members does, and the type is made of exactly what they get. -/
theorem c69_branches {E : Env} {acc : Access} {m : Name} : ∀ {t u : Ty}, call U E acc m t = .proven u →
    (∀ b, Branch t b → ∃ w, call U E acc m b = .proven w) ∧
    ∀ y, Branch u y ↔ ∃ b w, Branch t b ∧ call U E acc m b = .proven w ∧ Branch w y := by
  have main : ∀ t u, call U E acc m t = .proven u → (∀ b, Branch t b → ∃ w, call U E acc m b = .proven w) ∧
      ∀ y, Branch u y ↔ ∃ b w, Branch t b ∧ call U E acc m b = .proven w ∧ Branch w y := by
    have simple : ∀ t, Simple t → ∀ u, call U E acc m t = .proven u → (∀ b, Branch t b → ∃ w, call U E acc m b = .proven w) ∧
        ∀ y, Branch u y ↔ ∃ b w, Branch t b ∧ call U E acc m b = .proven w ∧ Branch w y := by
      intro t hs u h
      have only : ∀ b, Branch t b → b = t := by
        intro b hb
        cases hb with
        | self => rfl
        | member => exact absurd rfl (hs _)
      refine ⟨fun b hb => ⟨u, only b hb ▸ h⟩, fun y => ⟨fun hy => ⟨t, u, .self hs, h, hy⟩, ?_⟩⟩
      rintro ⟨b, w, hb, hw, hy⟩
      rw [only b hb, h] at hw
      cases hw
      exact hy
    have union : ∀ ts : List Ty, (∀ t ∈ ts, ∀ u, call U E acc m t = .proven u → (∀ b, Branch t b → ∃ w, call U E acc m b = .proven w) ∧
        ∀ y, Branch u y ↔ ∃ b w, Branch t b ∧ call U E acc m b = .proven w ∧ Branch w y) →
        ∀ u, call U E acc m (.union ts) = .proven u → (∀ b, Branch (.union ts) b → ∃ w, call U E acc m b = .proven w) ∧
        ∀ y, Branch u y ↔ ∃ b w, Branch (.union ts) b ∧ call U E acc m b = .proven w ∧ Branch w y := by
      intro ts ih u h
      obtain ⟨us, hall, rfl, hne⟩ := union_proven h
      refine ⟨fun b hb => ?_, fun y => ?_⟩
      · cases hb with
        | self hs => exact absurd rfl (hs _)
        | member hm hb =>
          obtain ⟨u', -, hc⟩ := forall₂_left hall hm
          exact (ih _ hm u' hc).1 b hb
      · rw [branch_union hne]
        constructor
        · rintro ⟨w, hw, hy⟩
          obtain ⟨t, ht, hc⟩ := forall₂_right hall hw
          obtain ⟨b, w', hb, hw', hy'⟩ := ((ih t ht w hc).2 y).mp hy
          exact ⟨b, w', .member ht hb, hw', hy'⟩
        · rintro ⟨b, w, hb, hw, hy⟩
          cases hb with
          | self hs => exact absurd rfl (hs _)
          | member hm hb =>
            obtain ⟨u', hu', hc⟩ := forall₂_left hall hm
            exact ⟨u', hu', ((ih _ hm u' hc).2 y).mpr ⟨b, w, hb, hw, hy⟩⟩
    exact Ty.ind (fun _ => simple _ (by intro us e; cases e)) (fun _ => simple _ (by intro us e; cases e))
      (fun _ => simple _ (by intro us e; cases e)) (fun _ => simple _ (by intro us e; cases e)) (fun _ => simple _ (by intro us e; cases e))
      (fun _ _ => simple _ (by intro us e; cases e)) (fun _ _ _ _ => simple _ (by intro us e; cases e))
      (fun _ _ _ _ _ _ _ => simple _ (by intro us e; cases e)) union (simple _ (by intro us e; cases e))
  intro t u h
  exact main t u h

/-! ### no panics -/

theorem nested_iff (t : Ty) : nested t = true ↔ BadUnion t := by
  have list : ∀ l : List Ty, (∀ t ∈ l, (nested t = true ↔ BadUnion t)) → (nestedList l = true ↔ ∃ t ∈ l, BadUnion t) := by
    intro l h
    induction l with
    | nil => simp [nestedList]
    | cons a l ih =>
      simp only [nestedList, Bool.or_eq_true, List.mem_cons, exists_eq_or_imp]
      rw [h a (by simp), ih fun t ht => h t (by simp [ht])]
  have fields : ∀ l : List Field, (∀ f ∈ l, (nested f.2.2 = true ↔ BadUnion f.2.2)) → (nestedFields l = true ↔ ∃ f ∈ l, BadUnion f.2.2) := by
    intro l h
    induction l with
    | nil => simp [nestedFields]
    | cons a l ih =>
      obtain ⟨k, o, t⟩ := a
      simp only [nestedFields, Bool.or_eq_true, List.mem_cons, exists_eq_or_imp]
      rw [h (k, o, t) (by simp), ih fun t ht => h t (by simp [ht])]
  revert t
  refine Ty.ind ?_ ?_ ?_ ?_ ?_ ?_ ?_ ?_ ?_ ?_
  · intro n; simp only [nested, Bool.false_eq_true, false_iff]; intro h; cases h
  · intro n; simp only [nested, Bool.false_eq_true, false_iff]; intro h; cases h
  · intro n; simp only [nested, Bool.false_eq_true, false_iff]; intro h; cases h
  · intro n; simp only [nested, Bool.false_eq_true, false_iff]; intro h; cases h
  · intro n; simp only [nested, Bool.false_eq_true, false_iff]; intro h; cases h
  · intro ts ih
    rw [nested, list ts ih]
    exact ⟨fun ⟨t, ht, h⟩ => .array ht h, fun h => by cases h with | array ht h => exact ⟨_, ht, h⟩⟩
  · intro ks vs ih1 ih2
    rw [nested, Bool.or_eq_true, list ks ih1, list vs ih2]
    constructor
    · rintro (⟨t, ht, h⟩ | ⟨t, ht, h⟩)
      · exact .key ht h
      · exact .value ht h
    · intro h
      cases h with
      | key ht h => exact .inl ⟨_, ht, h⟩
      | value ht h => exact .inr ⟨_, ht, h⟩
  · intro fs r o z d ih1 ih2
    rw [nested, Bool.or_eq_true, fields fs ih1]
    constructor
    · rintro (⟨t, ht, h⟩ | h)
      · exact .field ht h
      · match r, h with
        | some (k, v), h =>
          rw [nestedRest, Bool.or_eq_true] at h
          rcases h with h | h
          · exact .restKey ((ih2 k v rfl).1.mp h)
          · exact .restValue ((ih2 k v rfl).2.mp h)
    · intro h
      cases h with
      | field ht h => exact .inl ⟨_, ht, h⟩
      | restKey h => exact .inr (by rw [nestedRest, Bool.or_eq_true]; exact .inl ((ih2 _ _ rfl).1.mpr h))
      | restValue h => exact .inr (by rw [nestedRest, Bool.or_eq_true]; exact .inr ((ih2 _ _ rfl).2.mpr h))
  · intro ts ih
    rw [nested, Bool.or_eq_true, list ts ih, any_unknown]
    constructor
    · rintro (h | ⟨t, ht, h⟩)
      · exact .here h
      · exact .union ht h
    · intro h
      cases h with
      | here h => exact .inl h
      | union ht h => exact .inr ⟨_, ht, h⟩
  · simp only [nested, Bool.false_eq_true, false_iff]; intro h; cases h

theorem unionUnknown_iff {t : Ty} : unionUnknown t = true ↔ t = .unknown ∨ BadUnion t := by
  rw [unionUnknown, Bool.or_eq_true, nested_iff, isUnknown_iff]

theorem bad_occurs {t : Ty} (h : BadUnion t) : OccursUnknown t := by
  induction h with
  | here h => exact .union h .here
  | union ht _ ih => exact .union ht ih
  | array ht _ ih => exact .array ht ih
  | key ht _ ih => exact .key ht ih
  | value ht _ ih => exact .value ht ih
  | field ht _ ih => exact .field ht ih
  | restKey _ ih => exact .restKey ih
  | restValue _ ih => exact .restValue ih

theorem bad_simple {t : Ty} (h : BadUnion t) : (∀ n, t ≠ .cls n) ∧ (∀ l, t ≠ .lit l) ∧ t ≠ .unknown := by
  cases h <;> exact ⟨by simp, by simp, by simp⟩

theorem good_cls (n : Name) : ¬ BadUnion (.cls n) := fun h => (bad_simple h).1 n rfl
theorem good_unknown : ¬ BadUnion .unknown := fun h => (bad_simple h).2.2 rfl

theorem good_flatten {l : List Ty} (h : ∀ t ∈ l, ¬ BadUnion t) : ∀ t ∈ flatten l, ¬ BadUnion t := by
  intro t ht hb
  obtain ⟨w, hw, ha⟩ := mem_flatten.mp ht
  cases ha with
  | member hm => exact h _ hw (.union hm hb)
  | self => exact h t hw hb

theorem good_union {l : List Ty} (h : ∀ t ∈ l, ¬ BadUnion t) : ¬ BadUnion (mkUnion l) := by
  have hf := good_flatten h
  rw [mkUnion_eq]
  rcases finish_cases (flatten l) with ⟨e, -⟩ | ⟨-, -, t, e, ht⟩ | ⟨hu, -, -, e⟩
  · rw [e]; exact good_unknown
  · rw [e]; exact hf t ((ht t).mpr rfl)
  · rw [e]
    intro hb
    cases hb with
    | here hm => exact hu (mem_canon.mp hm)
    | union hm hb => exact hf _ (mem_canon.mp hm) hb

theorem good_members {l : List Ty} (h : ∀ t ∈ l, ¬ BadUnion t) : ∀ t ∈ members l, ¬ BadUnion t := by
  have hu := good_union h
  rcases RbsTypes.members_cases l with ⟨-, e⟩ | ⟨t, rfl, e⟩ | ⟨vs, hm, e⟩ | e
  · rw [e]; simpa using good_unknown
  · rw [e]; exact h
  · rw [e]; exact fun t ht hb => hu (by rw [hm]; exact .union ht hb)
  · rw [e]; simpa using hu

theorem good_optional {t : Ty} (h : ¬ BadUnion t) : ¬ BadUnion (Verif.Types.optional t) := by
  by_cases hu : t = .unknown
  · subst hu; exact good_unknown
  · have pair : ∀ a b : Ty, a ≠ .unknown → b ≠ .unknown → ¬ BadUnion a → ¬ BadUnion b → ¬ BadUnion (.union [a, b]) := by
      intro a b ha hb ga gb hbad
      cases hbad with
      | here hm =>
        simp only [List.mem_cons, List.not_mem_nil, or_false] at hm
        rcases hm with e | e
        · exact ha e.symm
        · exact hb e.symm
      | union hm hbad =>
        simp only [List.mem_cons, List.not_mem_nil, or_false] at hm
        rcases hm with rfl | rfl
        · exact ga hbad
        · exact gb hbad
    rcases RbsTypes.optional_cases t with ⟨e, -⟩ | ⟨ts, rfl, e⟩ | ⟨-, e⟩ | e | e
    · exact absurd e hu
    · rw [e]
      refine good_union fun x hx hb => ?_
      rcases List.mem_append.mp hx with hx | hx
      · exact h (.union hx hb)
      · simp only [List.mem_cons, List.not_mem_nil, or_false] at hx
        subst hx; exact good_cls _ hb
    · rw [e]; exact h
    · rw [e]; exact pair _ _ hu (by simp [nilTy]) h (good_cls _)
    · rw [e]; exact pair _ _ (by simp [nilTy]) hu (good_cls _) h

theorem good_record {fs : List Field} (h : ∀ f ∈ fs, ¬ BadUnion f.2.2) : ¬ BadUnion (RbsTypes.recordTy fs) := by
  rcases RbsTypes.recordTy_cases fs with e | ⟨gs, d, e, hp, -⟩
  · rw [e]; exact good_unknown
  · rw [e]
    intro hb
    cases hb with
    | field hm hb => exact h _ (hp.mem_iff.mp hm) hb

theorem good_className (n : Text) : ¬ BadUnion (RbsTypes.className U n) := by
  unfold RbsTypes.className
  split
  · exact good_cls _
  · split
    · exact good_cls _
    · exact good_unknown

theorem good_app (n : Text) {args : List Ty} (h : ∀ t ∈ args, ¬ BadUnion t) : ¬ BadUnion (RbsTypes.appTy U n args) := by
  unfold RbsTypes.appTy
  split
  · split
    · intro hb
      cases hb with
      | array hm hb => exact h _ hm hb
    · intro hb
      cases hb with
      | array hm hb => simp only [List.mem_cons, List.not_mem_nil, or_false] at hm; subst hm; exact good_unknown hb
  · split
    · split
      · intro hb
        cases hb with
        | key hm hb => exact h _ (by simp only [List.mem_cons, List.not_mem_nil, or_false] at hm; simp [hm]) hb
        | value hm hb => exact h _ (by simp only [List.mem_cons, List.not_mem_nil, or_false] at hm; simp [hm]) hb
      · intro hb
        cases hb with
        | key hm hb => simp only [List.mem_cons, List.not_mem_nil, or_false] at hm; subst hm; exact good_unknown hb
        | value hm hb => simp only [List.mem_cons, List.not_mem_nil, or_false] at hm; subst hm; exact good_unknown hb
    · exact good_className n

theorem good_array {ts : List Ty} (h : ∀ t ∈ ts, ¬ BadUnion t) : ¬ BadUnion (.array ts) := by
  intro hb
  cases hb with
  | array hm hb => exact h _ hm hb

theorem good_boolean : ¬ BadUnion RbsTypes.booleanTy := by
  rw [← nested_iff]; decide

theorem good_conv : ∀ t : Rbs, ¬ BadUnion (conv U t) := by
  refine RbsTypes.Rbs.ind ?_ ?_ ?_ ?_ ?_ ?_ ?_
  · intro t h1 h2 h3 h4 h5 h6
    cases t
    case app => exact absurd rfl (h1 _ _)
    case union => exact absurd rfl (h2 _)
    case inter => exact absurd rfl (h3 _)
    case opt => exact absurd rfl (h4 _)
    case tuple => exact absurd rfl (h5 _)
    case record => exact absurd rfl (h6 _)
    case cls => rw [conv]; exact good_className _
    case bool => rw [conv]; exact good_boolean
    case iface =>
      rw [conv]
      split
      · exact good_cls _
      · exact good_unknown
    all_goals (rw [conv]; intro hb; cases hb)
  · intro n args ih
    rw [conv, RbsTypes.convList_eq]
    exact good_app _ (by simpa using ih)
  · intro ts ih
    rw [conv, RbsTypes.convList_eq]
    exact good_union (by simpa using ih)
  · intro ts; rw [conv]; exact good_unknown
  · intro t ih; rw [conv]; exact good_optional ih
  · intro ts ih
    rw [conv, RbsTypes.convList_eq]
    exact good_array (good_members (by simpa using ih))
  · intro fs ih
    rw [conv, RbsTypes.convFields_eq]
    refine good_record fun f hf => ?_
    obtain ⟨g, hg, rfl⟩ := List.mem_map.mp hf
    exact ih g hg

theorem good_convWith {σ : Text → Option Ty} (hσ : ∀ n t, σ n = some t → ¬ BadUnion t) : ∀ t : Rbs, ¬ BadUnion (convWith U σ t) := by
  refine RbsTypes.Rbs.ind ?_ ?_ ?_ ?_ ?_ ?_ ?_
  · intro t h1 h2 h3 h4 h5 h6
    cases t
    case app => exact absurd rfl (h1 _ _)
    case union => exact absurd rfl (h2 _)
    case opt => exact absurd rfl (h4 _)
    case record => exact absurd rfl (h6 _)
    case cls n =>
      rw [convWith]
      split
      · next hs => exact hσ _ _ hs
      · exact good_className _
    case var n =>
      rw [convWith]
      cases h : σ n with
      | none => exact good_unknown
      | some t => exact hσ _ _ h
    all_goals
      rw [RbsTypes.convWith_other (by simp) (by simp) (by simp) (by simp) (by simp) (by simp)]
      exact good_conv _
  · intro n args ih
    by_cases hne : args = []
    · subst hne
      cases hs : σ (RbsTypes.strip n) with
      | some u => rw [RbsTypes.convWith_bare_some hs]; exact hσ _ _ hs
      | none => rw [RbsTypes.convWith_bare_none hs]; exact good_app _ (by simp)
    · rw [RbsTypes.convWith_app hne]
      exact good_app _ (by simpa using ih)
  · intro ts ih
    rw [convWith, RbsTypes.convWithList_eq]
    exact good_union (by simpa using ih)
  · intro ts
    rw [RbsTypes.convWith_other (by simp) (by simp) (by simp) (by simp) (by simp) (by simp)]
    exact good_conv _
  · intro t ih; rw [convWith]; exact good_optional ih
  · intro ts _
    rw [RbsTypes.convWith_other (by simp) (by simp) (by simp) (by simp) (by simp) (by simp)]
    exact good_conv _
  · intro fs ih
    rw [convWith, RbsTypes.convWithFields_eq]
    refine good_record fun f hf => ?_
    obtain ⟨g, hg, rfl⟩ := List.mem_map.mp hf
    exact ih g hg

theorem good_widen : ∀ t t', widen t = some t' → ¬ BadUnion t → ¬ BadUnion t' := by
  have list : ∀ {ts l : List Ty}, (∀ t ∈ ts, ∀ t', widen t = some t' → ¬ BadUnion t → ¬ BadUnion t') → widenList ts = some l →
      (∀ t ∈ ts, ¬ BadUnion t) → ∀ t ∈ l, ¬ BadUnion t := by
    intro ts l ih h hg t ht
    obtain ⟨a, ha, hw⟩ := forall₂_right (widenList_iff.mp h) ht
    exact ih a ha t hw (hg a ha)
  refine Ty.ind ?_ ?_ ?_ ?_ ?_ ?_ ?_ ?_ ?_ ?_
  · intro n t' h hg; simp only [widen] at h; cases h; exact hg
  · intro n t' h hg; simp only [widen] at h; cases h; exact hg
  · intro n t' h hg; simp only [widen] at h; cases h; exact hg
  · intro n t' h hg; simp only [widen] at h; cases h; exact hg
  · intro l t' h hg
    simp only [widen] at h; cases h
    unfold Lit.generic
    split <;> exact good_cls _
  · intro ts ih t' h hg
    simp only [widen, Option.map_eq_some_iff] at h
    obtain ⟨l, hl, rfl⟩ := h
    exact good_array (good_members (list ih hl fun t ht hb => hg (.array ht hb)))
  · intro ks vs ih1 ih2 t' h hg
    simp only [widen, Option.bind_eq_some_iff, Option.map_eq_some_iff] at h
    obtain ⟨k, hk, v, hv, rfl⟩ := h
    intro hb
    cases hb with
    | key hm hb => exact good_members (list ih1 hk fun t ht hb => hg (.key ht hb)) _ hm hb
    | value hm hb => exact good_members (list ih2 hv fun t ht hb => hg (.value ht hb)) _ hm hb
  · intro fs r o z d ih1 ih2 t' h hg
    obtain ⟨fs', r', gs, d', hf, hr, -, rfl, -, hp⟩ := widen_shape h
    intro hb
    cases hb with
    | field hm hb =>
      obtain ⟨f, hfm, hfr⟩ := forall₂_right hf (hp.mem_iff.mp hm)
      exact ih1 f hfm _ hfr.2.2 (fun hb => hg (.field hfm hb)) hb
    | restKey hb =>
      rcases widenRest_cases hr with ⟨-, e⟩ | ⟨k, v, k', v', rfl, e, hk, hv⟩
      · cases e
      · cases e; exact (ih2 k v rfl).1 _ hk (fun hb => hg (.restKey hb)) hb
    | restValue hb =>
      rcases widenRest_cases hr with ⟨-, e⟩ | ⟨k, v, k', v', rfl, e, hk, hv⟩
      · cases e
      · cases e; exact (ih2 k v rfl).2 _ hv (fun hb => hg (.restValue hb)) hb
  · intro ts ih t' h hg
    simp only [widen, Option.map_eq_some_iff] at h
    obtain ⟨l, hl, rfl⟩ := h
    exact good_union (list ih hl fun t ht hb => hg (.union ht hb))
  · intro t' h hg; simp only [widen] at h; cases h; exact hg

theorem good_genericHash {fs : List Field} {r : Option (Ty × Ty)} {o z : Bool} {d : Nat} {g : Ty} (h : genericHash fs r o = some g)
    (hg : ¬ BadUnion (.shape fs r o z d)) : ∃ ks vs, g = .hash ks vs ∧ (∀ t ∈ ks, ¬ BadUnion t) ∧ ∀ t ∈ vs, ¬ BadUnion t := by
  obtain ⟨ks, vs, rfl, -, -, hks, hvs, -⟩ := genericHash_spec h
  refine ⟨_, _, rfl, good_members fun t ht hb => ?_, good_members fun t ht hb => ?_⟩
  · rcases (hks t).mp ht with ⟨f, hf, rfl⟩ | ⟨k, v, rfl, hw⟩ | ⟨-, -, rfl⟩
    · unfold Lit.generic at hb
      split at hb <;> exact good_cls _ hb
    · exact good_widen k t hw (fun hb => hg (.restKey hb)) hb
    · exact good_unknown hb
  · rcases hvs t ht with ⟨f, hf, hw⟩ | ⟨k, v, rfl, hw⟩ | ⟨-, -, rfl⟩
    · exact good_widen _ t hw (fun hb => hg (.field hf hb)) hb
    · exact good_widen v t hw (fun hb => hg (.restValue hb)) hb
    · exact good_unknown hb

theorem good_returnTyWith {L : Loader} {c m : Name} {s : Bool} {args : List Ty} {u : Ty} (h : returnTyWith U L c m s args = some u)
    (ha : ∀ t ∈ args, ¬ BadUnion t) : ¬ BadUnion u := by
  rw [returnTyWith_eq] at h
  simp only [Option.map_eq_some_iff] at h
  obtain ⟨t, -, rfl⟩ := h
  refine good_convWith (fun n t hn => ?_) t
  obtain ⟨i, q, -, hi, -⟩ := substitution_some hn
  exact ha t (List.mem_iff_getElem?.mpr ⟨i, hi⟩)

theorem good_generic {L : Loader} {m : Name} {t u : Ty} (hg : ¬ BadUnion t) (h : generic U L m t = some (some u)) : ¬ BadUnion u := by
  have hash : ∀ ks vs, (∀ t ∈ ks, ¬ BadUnion t) → (∀ t ∈ vs, ¬ BadUnion t) → hashReturn U L m ks vs = some u → ¬ BadUnion u := by
    intro ks vs hk hv hh
    refine good_returnTyWith hh fun t ht => ?_
    simp only [List.mem_cons, List.not_mem_nil, or_false] at ht
    rcases ht with rfl | rfl
    · exact good_union hk
    · exact good_union hv
  cases t <;> simp only [generic, Option.some.injEq] at h
  any_goals cases h
  · exact good_returnTyWith h fun t ht hb => hg (.array ht hb)
  · exact hash _ _ (fun t ht hb => hg (.key ht hb)) (fun t ht hb => hg (.value ht hb)) h
  · simp only [Option.map_eq_some_iff] at h
    obtain ⟨g, hgg, h⟩ := h
    obtain ⟨ks, vs, rfl, h1, h2⟩ := good_genericHash hgg hg
    exact hash ks vs h1 h2 h

theorem fromOptional_good {t : Option Ty} {r : Reason} (h : ∀ u, t = some u → ¬ BadUnion u) : fromOptional t r ≠ .panic := by
  unfold fromOptional
  split
  · simp
  · next u =>
    split
    · simp
    · next hu =>
      unfold proven
      split
      · next hb =>
        rcases unionUnknown_iff.mp hb with e | e
        · exact absurd (isUnknown_iff.mpr e) hu
        · exact absurd e (h u rfl)
      · simp

theorem proven_good {t : Ty} (h : t ≠ .unknown ∧ ¬ BadUnion t) : proven t ≠ .panic := by
  unfold proven
  split
  · next hb =>
    rcases unionUnknown_iff.mp hb with e | e
    · exact absurd e h.1
    · exact absurd e h.2
  · simp

/-- The shape can be made a generic hash without a panic (see C22). -/
def Widens (t : Ty) : Prop := ∀ fs r o z d, t = .shape fs r o z d →
  (∀ f ∈ fs, widen f.2.2 ≠ none) ∧ ∀ k v, r = some (k, v) → widen k ≠ none ∧ widen v ≠ none

theorem widens_list {ts : List Ty} (h : ∀ t ∈ ts, widen t ≠ none) : ∃ l, widenList ts = some l := by
  induction ts with
  | nil => exact ⟨[], rfl⟩
  | cons a ts ih =>
    obtain ⟨l, hl⟩ := ih fun t ht => h t (by simp [ht])
    obtain ⟨b, hb⟩ := Option.ne_none_iff_exists'.mp (h a (by simp))
    exact ⟨b :: l, by rw [widenList, hb, hl]; rfl⟩

theorem widens_generic {fs : List Field} {r : Option (Ty × Ty)} {o z : Bool} {d : Nat} (h : Widens (.shape fs r o z d)) :
    genericHash fs r o ≠ none := by
  obtain ⟨h1, h2⟩ := h fs r o z d rfl
  obtain ⟨l, hl⟩ := widens_list (ts := fs.map fun f => f.2.2) (by
    intro t ht
    obtain ⟨f, hf, rfl⟩ := List.mem_map.mp ht
    exact h1 f hf)
  unfold genericHash
  rw [hl]
  match r with
  | none => cases o <;> simp
  | some (k, v) =>
    obtain ⟨hk, hv⟩ := h2 k v rfl
    obtain ⟨k', hk'⟩ := Option.ne_none_iff_exists'.mp hk
    obtain ⟨v', hv'⟩ := Option.ne_none_iff_exists'.mp hv
    simp [hk', hv']

theorem project_good {t u : Ty} {f : ShapeReads.Shape → ShapeReads.Out (List Ty)} (h : ShapeReads.project t f = .ok u) :
    u ≠ .unknown ∧ ¬ BadUnion u := by
  unfold ShapeReads.project at h
  obtain ⟨es, -, h⟩ := ShapeReads.bind_ok.mp h
  split at h
  · cases h
  · next hu =>
    cases h
    refine ⟨by simp, good_array (good_members fun t ht hb => hu ?_)⟩
    exact List.any_eq_true.mpr ⟨t, ht, (hasUnknown_iff _).mpr (bad_occurs hb)⟩

theorem widenAll_panic {ts : List Ty} (h : ∀ t ∈ ts, widen t ≠ none) : ShapeReads.widenAll ts ≠ .panic := by
  obtain ⟨l, hl⟩ := widens_list h
  simp [ShapeReads.widenAll, hl]

theorem values_widens {t : Ty} (hs : Simple t) (h : Widens t) : ShapeReads.values t ≠ .panic := by
  intro hp
  unfold ShapeReads.values ShapeReads.project at hp
  rcases ShapeReads.bind_panic.mp hp with hp | ⟨es, -, hp⟩
  · clear * - hs h hp
    have e : ShapeReads.unionMembers t = [t] := by
      cases t
      case union => exact absurd rfl (hs _)
      all_goals rfl
    rw [e, ShapeReads.collect] at hp
    rcases ShapeReads.bind_panic.mp hp with hp | ⟨es, -, hp⟩
    · clear * - hs h hp
      cases t with
      | shape fs r o z d =>
        simp only [ShapeReads.asShape, ShapeReads.Out.bind] at hp
        obtain ⟨h1, h2⟩ := h fs r o z d rfl
        split at hp
        · cases hp
        · refine widenAll_panic ?_ hp
          intro t ht
          rcases List.mem_append.mp ht with ht | ht
          · obtain ⟨f, hf, rfl⟩ := List.mem_map.mp ht
            exact h1 f hf
          · cases r with
            | none => simp at ht
            | some p => simp only [List.mem_cons, List.not_mem_nil, or_false] at ht; subst ht; exact (h2 _ _ rfl).2
      | _ => simp only [ShapeReads.asShape, ShapeReads.Out.bind] at hp; cases hp
    · simp [ShapeReads.collect, ShapeReads.Out.bind] at hp
  · split at hp <;> cases hp

theorem afterShapes_panic {E : Env} {acc : Access} {m : Name} {t : Ty} (hq : ∀ q, E.query = some q → ∀ s c m u, q acc s c m = some u → ¬ BadUnion u)
    (hg : ¬ BadUnion t) (hw : Widens t) : afterShapes U E acc m t ≠ .panic := by
  have look : lookUp U E acc m t ≠ .panic := by
    unfold lookUp
    split
    · next h =>
      cases t <;> simp only [generic, Option.map_eq_none_iff] at h
      any_goals cases h
      exact absurd h (widens_generic hw)
    · next u h => exact fromOptional_good fun u' e => by cases e; exact good_generic hg h
    · next hgen =>
      split
      · simp
      · split
        · next u ha =>
          refine fromOptional_good fun u' e => ?_
          cases e
          unfold asked at ha
          split at ha
          · cases ha
          · next q hqe =>
            obtain ⟨p, -, hp⟩ := List.exists_of_findSome?_eq_some ha
            exact hq q hqe _ _ _ _ hp
        · refine fromOptional_good fun u' e => ?_
          have named : ∀ n s, rbsNamed U E.rbs m s n = some u' → ¬ BadUnion u' := by
            intro n s hn
            obtain ⟨c, -, hc⟩ := List.exists_of_findSome?_eq_some hn
            simp only [returnTy, Option.map_eq_some_iff] at hc
            obtain ⟨r, -, rfl⟩ := hc
            exact good_conv r
          cases t <;> simp only [rbsReturn] at e
          any_goals exact named _ _ e
          all_goals (rw [hgen] at e; cases e)
  unfold afterShapes
  split
  · split
    · unfold proven
      rw [if_neg (by simp [unionUnknown, Ty.isUnknown, nested])]
      simp
    · exact look
  · exact look

theorem callOne_panic {E : Env} {acc : Access} {m : Name} {t : Ty} (hq : ∀ q, E.query = some q → ∀ s c m u, q acc s c m = some u → ¬ BadUnion u)
    (hs : Simple t) (hg : ¬ BadUnion t) (hw : Widens t) : callOne U E acc m t ≠ .panic := by
  unfold callOne
  split
  · simp
  · split
    · split
      · next o ho =>
        unfold argumentFree at ho
        split at ho
        · cases ho
          cases h : ShapeReads.keys t with
          | ok u => exact proven_good (project_good h)
          | err => simp [fromOut]
          | panic => exact absurd h (ShapeReads.c65_no_panic t none none []).2.2.2.1
        · split at ho
          · cases ho
            cases h : ShapeReads.values t with
            | ok u => exact proven_good (project_good h)
            | err => simp [fromOut]
            | panic => exact absurd h (values_widens hs hw)
          · split at ho
            · cases ho
              exact proven_good ⟨by simp [enumeratorTy], good_cls _⟩
            · cases ho
      · split
        · simp
        · exact afterShapes_panic hq hg hw
    · exact afterShapes_panic hq hg hw

/-- C69: a type that is given is not unknown, and no union in it has an unknown member. -/
theorem c69_known {E : Env} {acc : Access} {m : Name} {t u : Ty} (h : call U E acc m t = .proven u) : u ≠ .unknown ∧ ¬ BadUnion u := by
  have key : ∀ {w : Ty}, unionUnknown w = false → w ≠ .unknown ∧ ¬ BadUnion w := by
    intro w hw
    have := mt (unionUnknown_iff (t := w)).mpr (by simp [hw])
    exact ⟨fun e => this (.inl e), fun e => this (.inr e)⟩
  have look : ∀ t, lookUp U E acc m t = .proven u → u ≠ .unknown ∧ ¬ BadUnion u := by
    intro t h
    unfold lookUp at h
    split at h
    · cases h
    · exact key (fromOptional_proven h).2
    · split at h
      · cases h
      · split at h <;> exact key (fromOptional_proven h).2
  have after : ∀ t, afterShapes U E acc m t = .proven u → u ≠ .unknown ∧ ¬ BadUnion u := by
    intro t h
    unfold afterShapes at h
    split at h
    · split at h
      · exact key (proven_proven h).2
      · exact look _ h
    · exact look _ h
  rcases simple_or_union t with hs | ⟨us, rfl⟩
  · rw [call_simple hs] at h
    unfold callOne at h
    split at h
    · cases h
    · split at h
      · split at h
        · next o _ =>
          cases o with
          | ok => exact key (proven_proven h).2
          | err => cases h
          | panic => cases h
        · split at h
          · cases h
          · exact after _ h
      · exact after _ h
  · rw [call] at h
    split at h
    · cases h
    · cases h
    · exact key (fromOptional_proven h).2

/-- C69: no panic, when the types the project gives and the type of the receiver have no union with an unknown member, and the shapes
can be made generic hashes. -/
theorem c69_no_panic {E : Env} {acc : Access} {m : Name} (hq : ∀ q, E.query = some q → ∀ s c m u, q acc s c m = some u → ¬ BadUnion u) :
    ∀ {t : Ty}, ¬ BadUnion t → (∀ b, Branch t b → Widens b) → call U E acc m t ≠ .panic := by
  have simple : ∀ t, Simple t → ¬ BadUnion t → (∀ b, Branch t b → Widens b) → call U E acc m t ≠ .panic := by
    intro t hs hg hw
    rw [call_simple hs]
    exact callOne_panic hq hs hg (hw t (.self hs))
  have union : ∀ ts : List Ty, (∀ t ∈ ts, ¬ BadUnion t → (∀ b, Branch t b → Widens b) → call U E acc m t ≠ .panic) →
      ¬ BadUnion (.union ts) → (∀ b, Branch (.union ts) b → Widens b) → call U E acc m (.union ts) ≠ .panic := by
    intro ts ih hg hw
    have hn : ∀ l : List Ty, (∀ t ∈ l, t ∈ ts) → callAll U E acc m l ≠ none := by
      intro l hl
      induction l with
      | nil => rw [callAll]; simp
      | cons a l ihl =>
        have ha := hl a (by simp)
        rw [callAll]
        split
        · next hp => exact absurd hp (ih a ha (fun hb => hg (.union ha hb)) fun b hb => hw b (.member ha hb))
        · simp
        · simpa using ihl fun t ht => hl t (by simp [ht])
    rw [call]
    split
    · next h => exact absurd h (hn ts fun t ht => ht)
    · simp
    · next us hus =>
      refine fromOptional_good fun u e => ?_
      split at e
      · cases e
      · simp only [Option.some.injEq] at e
        subst e
        refine good_union fun w hww => ?_
        obtain ⟨t, -, hc⟩ := forall₂_right (callAll_some hus) hww
        exact (c69_known hc).2
  intro t hg hw
  revert hg hw
  exact Ty.ind (P := fun t => ¬ BadUnion t → (∀ b, Branch t b → Widens b) → call U E acc m t ≠ .panic)
    (fun _ => simple _ (by intro us e; cases e)) (fun _ => simple _ (by intro us e; cases e))
    (fun _ => simple _ (by intro us e; cases e)) (fun _ => simple _ (by intro us e; cases e)) (fun _ => simple _ (by intro us e; cases e))
    (fun _ _ => simple _ (by intro us e; cases e)) (fun _ _ _ _ => simple _ (by intro us e; cases e))
    (fun _ _ _ _ _ _ _ => simple _ (by intro us e; cases e)) union (simple _ (by intro us e; cases e)) t

/-! ### when a type is given -/

theorem callAll_of {E : Env} {acc : Access} {m : Name} {ts us : List Ty} (h : List.Forall₂ (fun t u => call U E acc m t = .proven u) ts us) :
    callAll U E acc m ts = some (some us) := by
  induction h with
  | nil => rw [callAll]
  | cons h _ ih => rw [callAll, h]; simp [ih]

/-- C69: when all members of a union get a type, the union does, unless there are more than eight shapes among what they get. -/
theorem c69_union {E : Env} {acc : Access} {m : Name} {ts us : List Ty} (hx : ∃ x, Alts us x)
    (h : List.Forall₂ (fun t u => call U E acc m t = .proven u) ts us) :
    (ManyShapes (Alts us) → call U E acc m (.union ts) = .unknown .unionMember) ∧
    (¬ ManyShapes (Alts us) → call U E acc m (.union ts) = .proven (mkUnion us)) := by
  have hus : us ≠ [] := by rintro rfl; obtain ⟨x, t, ht, -⟩ := hx; cases ht
  have he : us.isEmpty = false := by simpa using hus
  have good : ∀ u ∈ us, u ≠ .unknown ∧ ¬ BadUnion u := by
    intro u hu
    obtain ⟨t, -, hc⟩ := forall₂_right h hu
    exact c69_known hc
  have hun : .unknown ∉ flatten us := by
    intro hm
    obtain ⟨w, hw, ha⟩ := mem_flatten.mp hm
    cases ha with
    | member hm => exact (good _ hw).2 (.here hm)
    | self => exact (good _ hw).1 rfl
  have hnil : flatten us ≠ [] := by
    intro e
    obtain ⟨x, hx⟩ := hx
    have := mem_flatten.mpr hx
    rw [e] at this
    cases this
  have hm : ManyShapes (Alts us) ↔ ManyShapes (· ∈ flatten us) := by
    have : (fun x => x ∈ flatten us) = Alts us := funext fun x => propext mem_flatten
    rw [this]
  have hcall : call U E acc m (.union ts) = fromOptional (some (mkUnion us)) .unionMember := by
    rw [call, callAll_of h]
    simp [he]
  rw [hcall, hm, mkUnion_eq]
  rcases finish_cases (flatten us) with ⟨e, h1 | h1 | h1⟩ | ⟨-, hms, t, e, ht⟩ | ⟨-, hms, -, e⟩
  · exact absurd h1 hun
  · exact absurd h1 hnil
  · rw [e]
    exact ⟨fun _ => by simp [fromOptional, Ty.isUnknown], fun hn => absurd h1 hn⟩
  all_goals
    refine ⟨fun hn => absurd hn hms, fun _ => ?_⟩
    have hg : finish (flatten us) ≠ .unknown ∧ ¬ BadUnion (finish (flatten us)) := by
      refine ⟨?_, by rw [← mkUnion_eq]; exact good_union fun u hu => (good u hu).2⟩
      rw [e]
      first
      | exact fun et => hun (et ▸ (ht t).mpr rfl)
      | simp
    have : unionUnknown (finish (flatten us)) = false := by
      by_contra hc
      rcases unionUnknown_iff.mp (by simpa using hc) with h1 | h1
      · exact hg.1 h1
      · exact hg.2 h1
    have hi : (finish (flatten us)).isUnknown = false := by
      by_contra hc
      exact hg.1 (isUnknown_iff.mp (by simpa using hc))
    simp [fromOptional, proven, this, hi]

/-- A type that names a class or a module `n`, or that is the class or the module. -/
def Named (t : Ty) (singleton : Bool) (n : Name) : Prop :=
  if singleton then t = .clsRef n ∨ t = .modRef n else t = .cls n ∨ t = .mod n

theorem named_look {E : Env} {acc : Access} {m n : Name} {t : Ty} {s : Bool} (ht : Named t s n) (hm : m ≠ nameOf "new" ∨ s = false)
    (hv : E.valid m = true) : call U E acc m t =
      match asked E acc m t with
      | some u => fromOptional (some u) .methodReturn
      | none => fromOptional (rbsNamed U E.rbs m s n) .methodReturn := by
  unfold Named at ht
  split at ht
  · next hs =>
    subst hs
    have hm' : m ≠ nameOf "new" := hm.resolve_right (by simp)
    rcases ht with rfl | rfl
    · rw [call_simple (by intro us e; cases e)]
      simp only [callOne, Ty.isUnknown, shapeOnly, afterShapes, lookUp, generic, hv, rbsReturn, hm', if_false, Bool.false_eq_true, Bool.true_eq_false]
      cases asked E acc m _ <;> rfl
    · rw [call_simple (by intro us e; cases e)]
      simp only [callOne, Ty.isUnknown, shapeOnly, afterShapes, lookUp, generic, hv, rbsReturn, if_false, Bool.false_eq_true, Bool.true_eq_false]
      cases asked E acc m _ <;> rfl
  · next hs =>
    have : s = false := by simpa using hs
    subst this
    rcases ht with rfl | rfl
    all_goals
      rw [call_simple (by intro us e; cases e)]
      simp only [callOne, Ty.isUnknown, shapeOnly, afterShapes, lookUp, generic, hv, rbsReturn, if_false, Bool.false_eq_true, Bool.true_eq_false]
      cases asked E acc m _ <;> rfl

theorem fromOptional_some {u : Ty} {r : Reason} (h : u ≠ .unknown) (hb : ¬ BadUnion u) : fromOptional (some u) r = .proven u := by
  have h1 : u.isUnknown = false := by
    by_contra hc
    exact h (isUnknown_iff.mp (by simpa using hc))
  have h2 : unionUnknown u = false := by
    by_contra hc
    rcases unionUnknown_iff.mp (by simpa using hc) with h3 | h3
    · exact h h3
    · exact hb h3
  simp [fromOptional, proven, h1, h2]

theorem asked_first {n : Name} {t : Ty} {s : Bool} (ht : Named t s n) :
    ∃ l, namespaces t = (s, n) :: l ∧ ∀ p ∈ l, p = (false, []) ∧ s = false ∧ simpleName n = nameOf "Object" := by
  have inst : ∃ l, instanceSpaces n = (false, n) :: l ∧ ∀ p ∈ l, p = (false, []) ∧ simpleName n = nameOf "Object" := by
    unfold instanceSpaces
    split
    · next h => exact ⟨_, rfl, fun p hp => ⟨by simpa using hp, h⟩⟩
    · exact ⟨_, rfl, fun p hp => by cases hp⟩
  unfold Named at ht
  split at ht
  · next hs =>
    subst hs
    rcases ht with rfl | rfl <;> exact ⟨[], rfl, fun p hp => by cases hp⟩
  · next hs =>
    have : s = false := by simpa using hs
    subst this
    obtain ⟨l, e, hl⟩ := inst
    rcases ht with rfl | rfl <;> exact ⟨l, e, fun p hp => ⟨(hl p hp).1, rfl, (hl p hp).2⟩⟩

/-- The path ends in the name, or is the name. -/
def Ends (n last : Name) : Prop := n = last ∨ ∃ pre, n = pre ++ 58 :: last

theorem ends_iff {n last : Name} (h : 58 ∉ last) : simpleName n = last ↔ Ends n last := by
  constructor
  · rintro rfl
    rcases simpleName_cases n with ⟨-, e⟩ | ⟨pre, k, e, -, hs⟩
    · exact .inl e.symm
    · exact .inr ⟨pre, by rw [hs]; exact e⟩
  · rintro (rfl | ⟨pre, rfl⟩)
    · exact simpleName_self h
    · exact simpleName_last h

/-- C69: for a class or a module the project is asked first (about `Object` also for methods of the top level, about no other class), then
RBS, by the path, and then by its last name; when none of them has an answer, no type is given. -/
theorem c69_sources {E : Env} {acc : Access} {m n : Name} {t : Ty} {s : Bool} {q : Access → Bool → Name → Name → Option Ty} (ht : Named t s n)
    (hm : m ≠ nameOf "new" ∨ s = false) (hv : E.valid m = true) (hq : E.query = some q) (hn : n ≠ []) :
    (∀ u, q acc s n m = some u → u ≠ .unknown → ¬ BadUnion u → call U E acc m t = .proven u) ∧
    (∀ u, q acc s n m = none → s = false → Ends n (nameOf "Object") → q acc false [] m = some u → u ≠ .unknown → ¬ BadUnion u →
      call U E acc m t = .proven u) ∧
    (q acc s n m = none → (s = false → Ends n (nameOf "Object") → q acc false [] m = none) →
      (∀ r, E.rbs.returnType n m s = some r → conv U r ≠ .unknown → call U E acc m t = .proven (conv U r)) ∧
      (E.rbs.returnType n m s = none → ∀ pre last, n = pre ++ 58 :: last → 58 ∉ last →
        (∀ r, E.rbs.returnType last m s = some r → conv U r ≠ .unknown → call U E acc m t = .proven (conv U r)) ∧
        (E.rbs.returnType last m s = none → call U E acc m t = .unknown .methodReturn)) ∧
      (E.rbs.returnType n m s = none → 58 ∉ n → call U E acc m t = .unknown .methodReturn)) := by
  obtain ⟨l, hl, hlp⟩ := asked_first ht
  refine ⟨fun u hu hne hb => ?_, fun u hu hs hends htop hne hb => ?_, fun hnone htop => ?_⟩
  · rw [named_look ht hm hv]
    have : asked E acc m t = some u := by simp [asked, hq, hl, hu]
    rw [this]
    exact fromOptional_some hne hb
  · rw [named_look ht hm hv]
    have : asked E acc m t = some u := by
      have : namespaces t = [(s, n), (false, [])] := by
        subst hs
        have ho := (ends_iff (by decide)).mpr hends
        unfold Named at ht
        rw [if_neg (by simp)] at ht
        rcases ht with rfl | rfl <;> simp [namespaces, instanceSpaces, ho]
      simp [asked, hq, this, hu, htop]
    rw [this]
    exact fromOptional_some hne hb
  · have ha : asked E acc m t = none := by
      simp only [asked, hq, hl, List.findSome?_cons, hnone, List.findSome?_eq_none_iff]
      intro p hp
      obtain ⟨rfl, hs, ho⟩ := hlp p hp
      exact htop hs ((ends_iff (by decide)).mp ho)
    have hc : call U E acc m t = fromOptional (rbsNamed U E.rbs m s n) .methodReturn := by rw [named_look ht hm hv, ha]
    rw [hc]
    refine ⟨fun r hr hne => ?_, fun hr pre last e hlast => ⟨fun r' hr' hne => ?_, fun hr' => ?_⟩, fun hr hcol => ?_⟩
    · have : rbsNamed U E.rbs m s n = some (conv U r) := by
        unfold rbsNamed classNames
        rw [if_neg hn]
        split <;> simp [returnTy, hr]
      rw [this]
      exact fromOptional_some hne (good_conv r)
    · have hs : simpleName n = last := by rw [e]; exact simpleName_last hlast
      have : rbsNamed U E.rbs m s n = some (conv U r') := by
        unfold rbsNamed classNames
        rw [if_neg hn, hs]
        split
        · next e' => rw [e', hr] at hr'; cases hr'
        · simp [returnTy, hr, hr']
      rw [this]
      exact fromOptional_some hne (good_conv r')
    · have hs : simpleName n = last := by rw [e]; exact simpleName_last hlast
      have : rbsNamed U E.rbs m s n = none := by
        unfold rbsNamed classNames
        rw [if_neg hn, hs]
        split <;> simp [returnTy, hr, hr']
      rw [this]; rfl
    · have : rbsNamed U E.rbs m s n = none := by
        unfold rbsNamed classNames
        rw [if_neg hn, if_pos (simpleName_self hcol)]
        simp [returnTy, hr]
      rw [this]; rfl

/-- C69: the methods of a string or symbol literal are those of `String` and `Symbol`. -/
theorem c69_literal {E : Env} {acc : Access} {m : Name} (l : Lit) :
    call U E acc m (.lit l) = call U E acc m (.cls (if l.isString then nameOf "String" else nameOf "Symbol")) := by
  have ha : asked E acc m (.lit l) = asked E acc m (.cls (if l.isString then nameOf "String" else nameOf "Symbol")) := rfl
  rw [call_simple (by intro us e; cases e), call_simple (by intro us e; cases e)]
  simp only [callOne, Ty.isUnknown, shapeOnly, afterShapes, lookUp, generic, rbsReturn, if_false, Bool.false_eq_true, ha, litClass]

/-- C69: nothing is said about a receiver of which nothing is known. -/
theorem c69_receiver {E : Env} {acc : Access} {m : Name} : call U E acc m .unknown = .unknown .receiver := by
  rw [call_simple (by intro us e; cases e)]
  rfl

/-- C69: the methods of a hash with known keys that need no arguments; all others but the ones of `c69_arguments` are those of the
generic hash. -/
theorem c69_shapes {E : Env} {acc : Access} {m : Name} {fs : List Field} {r : Option (Ty × Ty)} {o z : Bool} {d : Nat} :
    (∀ u, ShapeReads.keys (.shape fs r o z d) = .ok u → call U E acc (nameOf "keys") (.shape fs r o z d) = .proven u) ∧
    (∀ u, ShapeReads.values (.shape fs r o z d) = .ok u → call U E acc (nameOf "values") (.shape fs r o z d) = .proven u) ∧
    (m ∈ ["each", "each_pair", "each_key", "each_value"].map nameOf → call U E acc m (.shape fs r o z d) = .proven (.cls (nameOf "Enumerator"))) ∧
    (m ∉ ["keys", "values", "each", "each_pair", "each_key", "each_value", "[]", "fetch", "dig", "key?", "has_key?", "include?", "member?", "[]=",
        "delete", "merge", "merge!", "update"].map nameOf → ∀ g, genericHash fs r o = some g → call U E acc m (.shape fs r o z d) = call U E acc m g) := by
  have pr : ∀ u, u ≠ .unknown ∧ ¬ BadUnion u → proven u = .proven u := by
    intro u hu
    have h2 : unionUnknown u = false := by
      by_contra hc
      rcases unionUnknown_iff.mp (by simpa using hc) with h3 | h3
      · exact hu.1 h3
      · exact hu.2 h3
    simp [proven, h2]
  refine ⟨fun u h => ?_, fun u h => ?_, fun hm => ?_, fun hm g hg => ?_⟩
  · rw [call_simple (by intro us e; cases e)]
    simp only [callOne, Ty.isUnknown, shapeOnly, argumentFree, h, fromOut, if_true, if_false, Bool.false_eq_true]
    exact pr u (project_good h)
  · rw [call_simple (by intro us e; cases e)]
    have : nameOf "values" ≠ nameOf "keys" := by decide
    simp only [callOne, Ty.isUnknown, shapeOnly, argumentFree, h, fromOut, if_true, this, if_false, Bool.false_eq_true]
    exact pr u (project_good h)
  · rw [call_simple (by intro us e; cases e)]
    have h1 : m ≠ nameOf "keys" := by rintro rfl; exact absurd hm (by decide)
    have h2 : m ≠ nameOf "values" := by rintro rfl; exact absurd hm (by decide)
    have h3 : m ∈ [nameOf "each", nameOf "each_pair", nameOf "each_key", nameOf "each_value"] := hm
    simp only [callOne, Ty.isUnknown, shapeOnly, argumentFree, h1, h2, h3, fromOut, if_true, if_false, Bool.false_eq_true]
    exact pr _ ⟨by simp [enumeratorTy], good_cls _⟩
  · obtain ⟨ks, vs, rfl, -⟩ := genericHash_spec hg
    simp only [List.map_cons, List.map_nil, List.mem_cons, List.not_mem_nil, or_false, not_or] at hm
    have h1 : argumentFree (.shape fs r o z d) m = none := by
      unfold argumentFree
      simp [hm]
    have h2 : m ∉ needsArguments := by simp [needsArguments, hm]
    have ha : ∀ t, namespaces t = [] → asked E acc m t = none := by
      intro t ht
      unfold asked
      split
      · rfl
      · rw [ht]; rfl
    rw [call_simple (by intro us e; cases e), call_simple (by intro us e; cases e)]
    simp only [callOne, Ty.isUnknown, shapeOnly, h1, h2, if_true, if_false, Bool.false_eq_true, afterShapes, lookUp, generic, hg, Option.map_some,
      ha (.shape fs r o z d) rfl, ha (.hash _ _) rfl, rbsReturn, Option.getD_some]

/-- C69: reading and changing a hash with known keys needs the arguments; without them no type is given. -/
theorem c69_arguments {E : Env} {acc : Access} {m : Name} {fs : List Field} {r : Option (Ty × Ty)} {o z : Bool} {d : Nat}
    (hm : m ∈ ["[]", "fetch", "dig", "key?", "has_key?", "include?", "member?", "[]=", "delete", "merge", "merge!", "update"].map nameOf) :
    call U E acc m (.shape fs r o z d) = .unknown .methodReturn := by
  have h1 : argumentFree (.shape fs r o z d) m = none := by
    simp only [List.map_cons, List.map_nil, List.mem_cons, List.not_mem_nil, or_false] at hm
    unfold argumentFree
    rcases hm with rfl | rfl | rfl | rfl | rfl | rfl | rfl | rfl | rfl | rfl | rfl | rfl <;>
      rw [if_neg (by decide), if_neg (by decide), if_neg (by decide)]
  rw [call_simple (by intro us e; cases e)]
  have h2 : m ∈ needsArguments := by simpa [needsArguments] using hm
  simp [callOne, Ty.isUnknown, shapeOnly, h1, h2]

/-- C69: which question is asked: private methods are only looked for when that is allowed, protected ones only for a caller. -/
theorem c69_access (b : Bool) (c : Option Name) : (access b c = .priv ↔ b = true) ∧ (∀ n, access b c = .prot n ↔ b = false ∧ c = some n) ∧
    (access b c = .pub ↔ b = false ∧ c = none) := by
  cases b <;> cases c <;> simp [access]

/-! ### an example and counterexamples -/

def tInteger : Rbs := .cls "Integer".toList
/-- RBS knows `Time#year`, `Array#first` and `Integer#to_s`. -/
def someRbs : Loader := RbsTypes.load [⟨.cls, nameOf "Time", [], [⟨nameOf "year", false, [([], tInteger)]⟩]⟩,
  ⟨.cls, nameOf "Array", ["out Elem".toList], [⟨nameOf "first", false, [([], .cls "Elem".toList)]⟩]⟩,
  ⟨.cls, nameOf "Integer", [], [⟨nameOf "to_s", false, [([], .cls "String".toList)]⟩]⟩]
/-- The project has `Foo.new`, which gives a string, and `Foo#year`, a symbol. -/
def someProject : Access → Bool → Name → Name → Option Ty := fun _ s c m =>
  if c = nameOf "Foo" then (if s then (if m = nameOf "new" then some stringTy else none) else if m = nameOf "year" then some symbolTy else none)
  else if c = nameOf "Array" ∧ m = nameOf "first" then some symbolTy
  else none
def someEnv : Env := ⟨someRbs, some someProject, fun _ => true⟩

theorem conv_integer : conv U tInteger = RbsTypes.integerTy := by
  rw [tInteger, conv, RbsTypes.className, if_pos (by decide)]
  rfl

/-- C69, a concrete case: a union of a class of the project and one of RBS. -/
theorem c69_example : call U someEnv .pub (nameOf "year") (.union [.cls (nameOf "Foo"), .cls (nameOf "Time")]) =
      .proven (.union [RbsTypes.integerTy, symbolTy]) ∧
    call U someEnv .pub (nameOf "year") (.union [.cls (nameOf "Foo"), .cls (nameOf "Bar")]) = .unknown .unionMember := by
  have e1 : call U someEnv .pub (nameOf "year") (.cls (nameOf "Foo")) = .proven symbolTy :=
    (c69_sources (t := .cls (nameOf "Foo")) (s := false) (n := nameOf "Foo") (.inl rfl) (.inr rfl) rfl rfl (by decide)).1 _ (by decide)
      (by simp [symbolTy]) (good_cls _)
  have none : ∀ n s', n ≠ nameOf "Foo" → someProject .pub s' n (nameOf "year") = none := by
    intro n s' hn
    have h2 : nameOf "year" ≠ nameOf "first" := by decide
    simp [someProject, hn, h2]
  have e2 : call U someEnv .pub (nameOf "year") (.cls (nameOf "Time")) = .proven RbsTypes.integerTy := by
    rw [named_look (s := false) (n := nameOf "Time") (.inl rfl) (.inr rfl) rfl]
    have : asked someEnv .pub (nameOf "year") (.cls (nameOf "Time")) = Option.none := by decide +kernel
    rw [this]
    have : rbsNamed U someEnv.rbs (nameOf "year") false (nameOf "Time") = some (conv U tInteger) := by
      unfold rbsNamed classNames
      rw [if_neg (by decide), if_pos (by decide)]
      rfl
    rw [this, conv_integer]
    exact fromOptional_some (by simp [RbsTypes.integerTy]) (good_cls _)
  have e3 : call U someEnv .pub (nameOf "year") (.cls (nameOf "Bar")) = .unknown .methodReturn := by
    rw [named_look (s := false) (n := nameOf "Bar") (.inl rfl) (.inr rfl) rfl]
    have : asked someEnv .pub (nameOf "year") (.cls (nameOf "Bar")) = Option.none := by decide +kernel
    rw [this]
    have : rbsNamed U someEnv.rbs (nameOf "year") false (nameOf "Bar") = Option.none := by
      unfold rbsNamed classNames
      rw [if_neg (by decide), if_pos (by decide)]
      rfl
    rw [this]
    rfl
  constructor
  · rw [call, callAll_of (.cons e1 (.cons e2 .nil))]
    decide +kernel
  · rw [call, callAll, e1]
    simp only
    rw [callAll, e3]
    rfl

/-- C69, counterexample: a class of the project that is not in RBS gets the methods of the core class with the same last name. -/
theorem c69_last_name_fails : someRbs.methods (nameOf "Foo::Time") false (nameOf "year") = none ∧
    call U someEnv .pub (nameOf "year") (.cls (nameOf "Foo::Time")) = .proven RbsTypes.integerTy := by
  refine ⟨rfl, ?_⟩
  rw [named_look (s := false) (n := nameOf "Foo::Time") (.inl rfl) (.inr rfl) rfl]
  have : asked someEnv .pub (nameOf "year") (.cls (nameOf "Foo::Time")) = none := by decide +kernel
  rw [this]
  have : rbsNamed U someEnv.rbs (nameOf "year") false (nameOf "Foo::Time") = some (conv U tInteger) := by
    unfold rbsNamed classNames
    rw [if_neg (by decide), if_neg (by decide)]
    rfl
  rw [this, conv_integer]
  exact fromOptional_some (by simp [RbsTypes.integerTy]) (good_cls _)

/-- C69, counterexample: what the project says about `Foo.new` is not asked for. -/
theorem c69_own_new_fails : someProject .pub true (nameOf "Foo") (nameOf "new") = some stringTy ∧
    call U someEnv .pub (nameOf "new") (.clsRef (nameOf "Foo")) = .proven (.cls (nameOf "Foo")) := by
  refine ⟨by decide, ?_⟩
  rw [call_simple (by intro us e; cases e)]
  simp [callOne, Ty.isUnknown, shapeOnly, afterShapes, proven, unionUnknown, nested]

/-- C69, counterexample: the project is not asked about the methods of arrays and hashes, which it may have changed. -/
theorem c69_arrays_fails (L : Loader) (valid : Name → Bool) (q q' : Option (Access → Bool → Name → Name → Option Ty)) (acc acc' : Access) (m : Name) :
    (∀ ts, call U ⟨L, q, valid⟩ acc m (.array ts) = call U ⟨L, q', valid⟩ acc' m (.array ts)) ∧
    ∀ ks vs, call U ⟨L, q, valid⟩ acc m (.hash ks vs) = call U ⟨L, q', valid⟩ acc' m (.hash ks vs) := by
  have key : ∀ t (q : Option (Access → Bool → Name → Name → Option Ty)) acc, namespaces t = [] → asked ⟨L, q, valid⟩ acc m t = none := by
    intro t q acc h
    unfold asked
    split
    · rfl
    · rw [h]; rfl
  constructor
  · intro ts
    rw [call_simple (by intro us e; cases e), call_simple (by intro us e; cases e)]
    simp only [callOne, Ty.isUnknown, shapeOnly, afterShapes, lookUp, key (.array ts) _ _ rfl]
  · intro ks vs
    rw [call_simple (by intro us e; cases e), call_simple (by intro us e; cases e)]
    simp only [callOne, Ty.isUnknown, shapeOnly, afterShapes, lookUp, key (.hash ks vs) _ _ rfl]

/-- C69, counterexample: of an array with two types of elements, `first` gets the first type. -/
theorem c69_elements_fails : call U someEnv .pub (nameOf "first") (.array [RbsTypes.integerTy, stringTy]) = .proven RbsTypes.integerTy := by
  rw [call_simple (by intro us e; cases e)]
  have : generic U someEnv.rbs (nameOf "first") (.array [RbsTypes.integerTy, stringTy]) = some (some RbsTypes.integerTy) := by
    rw [generic, returnTyWith_eq]
    have h : someEnv.rbs.returnType (nameOf "Array") (nameOf "first") false = some (.cls "Elem".toList) := rfl
    have e : someEnv.rbs.params (nameOf "Array") = ["out Elem".toList] := rfl
    have hs : substitution ["out Elem".toList] [RbsTypes.integerTy, stringTy] "Elem".toList = some RbsTypes.integerTy := by decide +kernel
    rw [h, e, Option.map_some, convWith, hs]
  simp only [callOne, Ty.isUnknown, shapeOnly, afterShapes, lookUp, this, if_false, Bool.false_eq_true]
  exact fromOptional_some (by simp [RbsTypes.integerTy]) (good_cls _)

/-- C69: a name that is not taken for the name of a method (such as `!`) gets no type for a class, whatever is declared. -/
theorem c69_name {E : Env} {acc : Access} {m : Name} (hv : E.valid m = false) (n : Name) : call U E acc m (.cls n) = .unknown .name := by
  rw [call_simple (by intro us e; cases e)]
  simp [callOne, Ty.isUnknown, shapeOnly, afterShapes, lookUp, generic, hv]

/-- C69: the hypotheses of `c69_sound_partial` can be true together: here `year` is the only method that can be called, on anything,
and it gives integers. -/
theorem c69_hypotheses (ha : ∀ v : W.V, W.inst (nameOf "Array") v → W.isArr v) (hh : ∀ v : W.V, W.inst (nameOf "Hash") v → W.isHash v) :
    let Calls : W.V → Name → W.V → Prop := fun _ m x => m = nameOf "year" ∧ W.inst (nameOf "Integer") x
    Obeys W Calls U someRbs ∧ NewMakes W Calls ∧ HashCalls W Calls ∧ Direct someRbs (nameOf "year") (.cls (nameOf "Time")) := by
  have meth : ∀ c s m', someRbs.methods c s (nameOf "year") = some m' → c = nameOf "Time" ∧ s = false ∧ m' = ⟨nameOf "year", false, [([], tInteger)]⟩ := by
    intro c s m' h
    have h1 : ¬ nameOf "year" = nameOf "first" := by decide
    have h2 : ¬ nameOf "year" = nameOf "to_s" := by decide
    simp only [someRbs, RbsTypes.load, List.foldl, Loader.index, RbsTypes.addMethod, reduceCtorEq, if_false, h1, h2, and_false, Loader.empty] at h
    split at h
    · next hc => cases h; exact ⟨hc.1, hc.2.1, rfl⟩
    · cases h
  have hpath : RbsTypes.IsPath U "Integer".toList ["Integer".toList] := by
    refine ⟨by simp, fun p hp => ?_, .inl rfl⟩
    simp only [List.mem_cons, List.not_mem_nil, or_false] at hp
    subst hp
    exact RbsTypes.isConstant_iff.mp (RbsTypes.standard_constant (by decide))
  refine ⟨?_, ?_, ⟨?_, ?_, ?_⟩, ?_, ?_⟩
  · rintro c s m m' Ps v x hm hg ⟨rfl, hx⟩
    obtain ⟨rfl, rfl, rfl⟩ := meth c s m' hm
    have hp : someRbs.params (nameOf "Time") = [] := rfl
    refine ⟨([], tInteger), by simp, RbsTypes.rootReading U W (Params someRbs (nameOf "Time") []) (fun _ _ => False), ?_, ?_, ?_⟩
    · exact (RbsTypes.c68_readings _ _ ha hh).1
    · refine .cls (((RbsTypes.c68_readings _ _ ha hh).2) _ _ _ ?_ hpath hx)
      simp [Params, hp]
    · intro i q P y hq
      rw [hp] at hq
      simp at hq
  · rintro n v x - ⟨h, -⟩; exact absurd h (by decide)
  · rintro v x - ⟨h, -⟩; exact absurd h (by decide)
  · rintro v x - ⟨h, -⟩; exact absurd h (by decide)
  · rintro v m x - hm ⟨rfl, -⟩; exact absurd hm (by decide)
  · intro m' hm
    obtain ⟨-, -, rfl⟩ := meth _ _ _ hm
    refine ⟨tInteger, fun p hp => ?_⟩
    simp only [List.mem_cons, List.not_mem_nil, or_false] at hp
    subst hp
    rw [if_pos rfl]
    refine ⟨rfl, .cls ?_⟩
    have hp : someRbs.params (nameOf "Time") = [] := rfl
    simp [Params, hp]
  · intro pre last e
    exact absurd (by rw [e]; simp) (show 58 ∉ nameOf "Time" by decide)

end Verif.MethodReturn
