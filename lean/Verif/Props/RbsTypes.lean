import Verif.Lemmas.RbsTypes
/-!
C68: the types read from RBS signatures.
-/
namespace Verif.RbsTypes
open Verif.Types
open Verif.Yard (Text Unicode joinPath)

variable {W : World} {U : Unicode}

/-- C68: a type written in RBS is converted to one that describes all its values. -/
theorem c68_sound {params : Text → Prop} {R : Reading W} (hR : Rooted U W R params) {t : Rbs} (ht : Closed params t) {v : W.V}
    (h : Sat R t v) : Desc W (conv U t) v :=
  conv_sound hR t ht v h

/-- C68: and to one that describes no other values, unless something is unknown. -/
theorem c68_exact {params : Text → Prop} {R : Reading W} (hR : Rooted U W R params) (hE : Exactly U W R params) {t : Rbs}
    (ht : Closed params t) (hc : Crisp t) (hu : ¬ OccursUnknown (conv U t)) (v : W.V) : Sat R t v ↔ Desc W (conv U t) v :=
  ⟨conv_sound hR t ht v, conv_exact hE t ht hc v (by by_contra hne; exact hu ((hasUnknown_iff _).mp (by simpa using hne)))⟩

/-- C68: with the type parameters bound to types, the converted type describes all values of the written one. -/
theorem c68_bound_sound {params : Text → Prop} {R : Reading W} (hR : Rooted U W R params) {σ : Text → Option Ty} (hσ : Binds W R σ) {t : Rbs}
    (ht : Bounded params (fun n => σ n ≠ none) t) {v : W.V} (h : Sat R t v) : Desc W (convWith U σ t) v :=
  convWith_sound hR hσ t ht v h

/-- C68: and no other values. -/
theorem c68_bound_exact {params : Text → Prop} {R : Reading W} (hR : Rooted U W R params) (hE : Exactly U W R params) {σ : Text → Option Ty}
    (hσ : Binds W R σ) (hσE : BindsExactly W R σ) {t : Rbs} (ht : Bounded params (fun n => σ n ≠ none) t) (hc : Crisp t)
    (hu : ¬ OccursUnknown (convWith U σ t)) (v : W.V) : Sat R t v ↔ Desc W (convWith U σ t) v :=
  ⟨convWith_sound hR hσ t ht v, convWith_exact hE hσE t ht hc v (by by_contra hne; exact hu ((hasUnknown_iff _).mp (by simpa using hne)))⟩

/-- C68: the name of a class is that class; no other name is taken for one. -/
theorem c68_name (n : Text) : (∀ path, IsPath U n path → conv U (.cls n) = .cls (code (joinPath path))) ∧
    ((∀ path, ¬ IsPath U n path) → conv U (.cls n) = .unknown) := by
  refine ⟨fun path h => by rw [conv, className_path h], fun h => ?_⟩
  rw [conv]
  rcases className_cases (U := U) n with ⟨path, hp, -⟩ | ⟨-, e⟩
  · exact absurd hp (h path)
  · exact e

theorem code_inj {a b : Text} (h : code a = code b) : a = b := by
  unfold code at h
  induction a generalizing b with
  | nil => cases b with
    | nil => rfl
    | cons c b => cases h
  | cons c a ih => cases b with
    | nil => cases h
    | cons d b =>
      simp only [List.map_cons, List.cons.injEq] at h
      rw [Char.toNat_inj.mp h.1, ih h.2]

/-- C68: a record with at most 32 fields, all known and without records in them, and no two of one name, is a shape with these
fields. -/
theorem c68_record (fs : List (Text × Bool × Rbs)) (hlen : fs.length ≤ 32) (hd : (fs.map (·.1)).Nodup)
    (hu : ∀ f ∈ fs, ¬ OccursUnknown (conv U f.2.2)) (hdepth : ∀ f ∈ fs, ¬ ShapeNest (conv U f.2.2) 1) :
    ∃ gs d, conv U (.record fs) = .shape gs none false false d ∧ gs.Perm (fs.map fun f => (⟨false, code f.1⟩, f.2.1, conv U f.2.2)) := by
  have h0 : ∀ f ∈ fs, depthIn (conv U f.2.2) = 0 := by
    intro f hf
    by_contra h
    exact hdepth f hf (nest_of_depth _ h)
  generalize hg : (fs.map fun f => ((⟨false, code f.1⟩, f.2.1, conv U f.2.2) : Field)) = gs
  have hmem : ∀ g ∈ gs, ∃ f ∈ fs, g = (⟨false, code f.1⟩, f.2.1, conv U f.2.2) := by
    intro g h
    rw [← hg] at h
    obtain ⟨f, hf, rfl⟩ := List.mem_map.mp h
    exact ⟨f, hf, rfl⟩
  have hn : nestedDepth (stableSort fieldLe gs) none = 0 := by
    unfold nestedDepth
    have : depthList ((stableSort fieldLe gs).map fun f => f.2.2) = 0 := by
      rcases depthList_attained (l := (stableSort fieldLe gs).map fun f => f.2.2) with h | ⟨t, ht, he⟩
      · exact h
      · obtain ⟨g, hgm, rfl⟩ := List.mem_map.mp ht
        obtain ⟨f, hf, rfl⟩ := hmem g (mem_stableSort.mp hgm)
        rw [← he]; exact h0 f hf
    simp [this]
  have : tryNew gs none false false = .ok (.shape (stableSort fieldLe gs) none false false (nestedDepth (stableSort fieldLe gs) none + 1)) := by
    refine c23_try_new.mpr ⟨?_, by simp, ?_, ?_, by simp, by omega, rfl⟩
    · rw [← hg]; simpa using hlen
    · rw [← hg, List.map_map]
      have e : ((fun x : Field => x.1) ∘ fun f : Text × Bool × Rbs => ((⟨false, code f.1⟩, f.2.1, conv U f.2.2) : Field)) =
          (fun n : Text => (⟨false, code n⟩ : Lit)) ∘ (·.1) := rfl
      rw [e, ← List.map_map]
      exact hd.map (fun a b hab => by
        injection hab with _ hab
        exact code_inj hab)
    · intro g h
      obtain ⟨f, hf, rfl⟩ := hmem g h
      exact hu f hf
  refine ⟨stableSort fieldLe gs, nestedDepth (stableSort fieldLe gs) none + 1, ?_, stableSort_perm gs⟩
  rw [conv, convFields_eq, hg, recordTy, this]

/-- C68: the argument given for a type parameter is bound to its name, without `unchecked`, `in` and `out`. -/
theorem c68_parameters (params : List (Text × Text)) (args : List Ty) (hp : ∀ p ∈ params, ' ' ∉ p.2) (hd : (params.map (·.2)).Nodup) (n : Text) (t : Ty) :
    substitution (params.map fun p => if p.1 = [] then p.2 else p.1 ++ ' ' :: p.2) args n = some t ↔
      ∃ i : Nat, (params[i]?).map Prod.snd = some n ∧ args[i]? = some t := by
  have hname : (params.map fun p => if p.1 = [] then p.2 else p.1 ++ ' ' :: p.2).map paramName = params.map (·.2) := by
    rw [List.map_map]
    refine List.map_congr_left fun p h => ?_
    simp only [Function.comp]
    split
    · exact paramName_plain (hp p h)
    · exact paramName_modified (hp p h) p.1
  rw [substitution_iff (by rw [hname]; exact hd)]
  constructor
  · rintro ⟨p, h, rfl⟩
    obtain ⟨i, hi⟩ := List.mem_iff_getElem?.mp h
    rw [List.getElem?_zip_eq_some] at hi
    refine ⟨i, ?_, hi.2⟩
    have := congrArg (·[i]?) hname
    simp only [List.getElem?_map] at this hi
    rw [hi.1] at this
    simpa using this.symm
  · rintro ⟨i, h1, h2⟩
    obtain ⟨q, hq, rfl⟩ := Option.map_eq_some_iff.mp h1
    refine ⟨if q.1 = [] then q.2 else q.1 ++ ' ' :: q.2, List.mem_iff_getElem?.mpr ⟨i, ?_⟩, ?_⟩
    · rw [List.getElem?_zip_eq_some]
      exact ⟨by simp [hq], h2⟩
    · have hm := List.mem_of_getElem? hq
      split
      · exact paramName_plain (hp q hm)
      · exact paramName_modified (hp q hm) q.1

/-- C68: of several declarations of a method the last one is taken, and of several declarations of a class the last one, too. -/
theorem c68_index (ds : List Decl) (c : Name) : (∀ s m meth, (load ds).methods c s m = some meth ↔
      ∃ pre d post, ds = pre ++ d :: post ∧ Declares d c s m meth ∧ ∀ d' ∈ post, ∀ m', ¬ Declares d' c s m m') ∧
    ∀ d, (load ds).decls c = some d ↔ ∃ pre post, ds = pre ++ d :: post ∧ d.name = c ∧ ∀ d' ∈ post, d'.name ≠ c :=
  ⟨fun _ _ _ => load_methods ds, fun _ => load_decls ds⟩

/-- C68 (partial): the type given for a call of a method with one signature describes what the signature allows.  Missing: methods
with several signatures, and types that are not `Bounded`; for them see the counterexamples. -/
theorem c68_return_partial {ds : List Decl} {d : Decl} {c m : Name} {s : Bool} {args : List Ty} {meth : Method} {own : List Text} {t : Rbs} {u : Ty}
    (hd : (load ds).decls c = some d) (hk : d.kind ≠ .other) (hm : (load ds).methods c s m = some meth) (ho : meth.overloads = [(own, t)])
    (hu : returnTyWith U (load ds) c m s args = some u) {R : Reading W}
    (hR : Rooted U W R (fun n => n ∈ d.params.map paramName ∨ n ∈ own))
    (hB : Binds W R (substitution d.params args))
    (ht : Bounded (fun n => n ∈ d.params.map paramName ∨ n ∈ own) (fun n => substitution d.params args n ≠ none) t)
    {v : W.V} (h : Sat R t v) : Desc W u v := by
  have hp : (load ds).params c = d.params := by simp [Loader.params, hd, hk]
  rw [returnTyWith_eq, hp] at hu
  simp only [Loader.returnType, hm, Option.bind_some, ho, List.head?_cons, Option.map_some, Option.some.injEq] at hu
  rw [← hu]
  exact convWith_sound hR hB t ht v h

/-- C68: there is a type for every declared method, and for no other. -/
theorem c68_declared (ds : List Decl) (c m : Name) (s : Bool) (args : List Ty) :
    ((returnTyWith U (load ds) c m s args).isSome = (returnTy U (load ds) c m s).isSome) ∧
    ((returnTy U (load ds) c m s).isSome = true ↔
      ∃ pre d post meth, ds = pre ++ d :: post ∧ Declares d c s m meth ∧ (∀ d' ∈ post, ∀ m', ¬ Declares d' c s m m') ∧ meth.overloads ≠ []) := by
  refine ⟨by simp [returnTyWith, returnTy], ?_⟩
  simp only [returnTy, Loader.returnType, Option.isSome_map]
  constructor
  · intro h
    cases hm : (load ds).methods c s m with
    | none => simp [hm] at h
    | some meth =>
      obtain ⟨pre, d, post, e, h1, h2⟩ := (load_methods ds).mp hm
      refine ⟨pre, d, post, meth, e, h1, h2, fun e => ?_⟩
      simp [hm, e] at h
  · rintro ⟨pre, d, post, meth, e, h1, h2, h3⟩
    rw [(load_methods ds).mpr ⟨pre, d, post, e, h1, h2⟩]
    cases ho : meth.overloads with
    | nil => exact absurd ho h3
    | cons a l => simp [ho]

/-! ### examples and counterexamples -/

/-- The reading in which every path is the class from the root, and the type parameters are what is given. -/
def rootReading (U : Unicode) (W : World) (params : Text → Prop) (P : Text → W.V → Prop) : Reading W where
  name n v := (params n ∧ P n v) ∨ (¬ params n ∧ ∃ path, IsPath U n path ∧ W.inst (code (joinPath path)) v)
  var n v := P n v
  iface _ _ := True
  int _ v := W.inst (nameOf "Integer") v
  gen n _ v := (params n ∧ P n v) ∨ (¬ params n ∧ ∃ path, IsPath U n path ∧ W.inst (code (joinPath path)) v)
  slf _ := True
  inst _ := True
  cls _ := True

/-- C68: the hypotheses can be met: in every world where instances of `Array` and of `Hash` are arrays and hashes. -/
theorem c68_readings (params : Text → Prop) (P : Text → W.V → Prop) (ha : ∀ v, W.inst (nameOf "Array") v → W.isArr v)
    (hh : ∀ v, W.inst (nameOf "Hash") v → W.isHash v) :
    Rooted U W (rootReading U W params P) params ∧ Exactly U W (rootReading U W params P) params := by
  have one : ∀ n p q, IsPath U n p → IsPath U n q → joinPath p = joinPath q := by
    intro n p q hp hq
    rw [← strip_isPath hp, ← strip_isPath hq]
  refine ⟨⟨?_, fun _ _ _ h => h, ?_, ?_, fun _ _ h => h⟩, fun n path v hn hp h => .inr ⟨hn, path, hp, h⟩⟩
  · rintro n path v hn hp (h | ⟨-, q, hq, h⟩)
    · exact absurd h.1 hn
    · rw [one n path q hp hq]; exact h
  · rintro n v hn hna (h | ⟨-, q, hq, h⟩)
    · exact absurd h.1 hn
    · rw [← strip_isPath hq, strip_array.mpr hna] at h; exact ha v h
  · rintro n v hn hna (h | ⟨-, q, hq, h⟩)
    · exact absurd h.1 hn
    · rw [← strip_isPath hq, strip_hash.mpr hna] at h; exact hh v h

def intR : Ty := .cls (nameOf "Integer")
def tElem : Text := "Elem".toList
def tK : Text := "K".toList
def tV : Text := "V".toList
def tU : Text := "U".toList

/-- `class Array[unchecked out Elem]` with `def first: () -> Elem | (int n) -> ::Array[Elem]` (core/array.rbs L2084) and
`def collect: [U] () { (Elem) -> U } -> ::Array[U]`. -/
def arrayDecl : Decl := ⟨.cls, nameOf "Array", ["unchecked out Elem".toList],
  [⟨nameOf "first", false, [([], .cls tElem), ([], .app "::Array".toList [.cls tElem])]⟩,
   ⟨nameOf "collect", false, [([tU], .app "::Array".toList [.cls tU])]⟩]⟩

/-- `class Hash[unchecked out K, unchecked out V]` with `def to_a: () -> ::Array[[ K, V ]]` (core/hash.rbs L1583),
`def values: () -> ::Array[V]` (L1792) and `def key: (V) -> K?`. -/
def hashDecl : Decl := ⟨.cls, nameOf "Hash", ["unchecked out K".toList, "unchecked out V".toList],
  [⟨nameOf "to_a", false, [([], .app "::Array".toList [.tuple [.cls tK, .cls tV]])]⟩,
   ⟨nameOf "values", false, [([], .app "::Array".toList [.cls tV])]⟩,
   ⟨nameOf "key", false, [([], .opt (.cls tK))]⟩]⟩

theorem class_K : className U tK = .cls (nameOf "K") := ascii_class (by decide) (by decide) (by decide)
theorem class_V : className U tV = .cls (nameOf "V") := ascii_class (by decide) (by decide) (by decide)
theorem class_U : className U tU = .cls (nameOf "U") := ascii_class (by decide) (by decide) (by decide)

theorem hash_binds : substitution hashDecl.params [symbolTy, intR] tK = some symbolTy ∧ substitution hashDecl.params [symbolTy, intR] tV = some intR := by
  decide +kernel

theorem with_hash {m : Name} {t : Rbs} (h : (load [arrayDecl, hashDecl]).returnType (nameOf "Hash") m false = some t) :
    returnTyWith U (load [arrayDecl, hashDecl]) (nameOf "Hash") m false [symbolTy, intR] =
      some (convWith U (substitution hashDecl.params [symbolTy, intR]) t) := by
  have e : (load [arrayDecl, hashDecl]).params (nameOf "Hash") = hashDecl.params := by
    have h : (load [arrayDecl, hashDecl]).decls (nameOf "Hash") = some hashDecl := (load_decls _).mpr ⟨[arrayDecl], [], rfl, rfl, by simp⟩
    simp [Loader.params, h, show hashDecl.kind ≠ .other by decide]
  rw [returnTyWith_eq, h, e]; rfl

/-- C68: concrete cases: `{ a: 1 }.values` and `{ a: 1 }.key(1)`. -/
theorem c68_example : returnTyWith U (load [arrayDecl, hashDecl]) (nameOf "Hash") (nameOf "values") false [symbolTy, intR] = some (.array [intR]) ∧
    returnTyWith U (load [arrayDecl, hashDecl]) (nameOf "Hash") (nameOf "key") false [symbolTy, intR] = some (.union [nilTy, symbolTy]) := by
  constructor
  · rw [with_hash (t := .app "::Array".toList [.cls tV]) rfl, convWith_app (by simp)]
    simp only [List.map_cons, List.map_nil, convWith, hash_binds.2]
    rfl
  · rw [with_hash (t := .opt (.cls tK)) rfl, convWith]
    simp only [convWith, hash_binds.1]
    decide +kernel

/-- C68 fails below a tuple: `{ a: 1 }.to_a` is an array of pairs of a `K` and a `V`, which are classes that nobody wrote. -/
theorem c68_tuple_fails : returnTyWith U (load [arrayDecl, hashDecl]) (nameOf "Hash") (nameOf "to_a") false [symbolTy, intR] =
    some (.array [.array [.cls (nameOf "K"), .cls (nameOf "V")]]) := by
  rw [with_hash (t := .app "::Array".toList [.tuple [.cls tK, .cls tV]]) rfl, convWith_app (by simp)]
  simp only [List.map_cons, List.map_nil, convWith, conv, convList, class_K, class_V]
  have : members [Ty.cls (nameOf "K"), Ty.cls (nameOf "V")] = [Ty.cls (nameOf "K"), Ty.cls (nameOf "V")] := by decide +kernel
  rw [this]
  rfl

/-- C68 fails for the type parameters of a method: `[1].collect { … }` is an array of `U`. -/
theorem c68_method_parameter_fails : returnTyWith U (load [arrayDecl, hashDecl]) (nameOf "Array") (nameOf "collect") false [intR] =
    some (.array [.cls (nameOf "U")]) := by
  have h : (load [arrayDecl, hashDecl]).returnType (nameOf "Array") (nameOf "collect") false = some (.app "::Array".toList [.cls tU]) := rfl
  have e : (load [arrayDecl, hashDecl]).params (nameOf "Array") = arrayDecl.params := by
    have h : (load [arrayDecl, hashDecl]).decls (nameOf "Array") = some arrayDecl := (load_decls _).mpr ⟨[], [hashDecl], rfl, rfl, by decide⟩
    simp [Loader.params, h, show arrayDecl.kind ≠ .other by decide]
  have hs : substitution arrayDecl.params [intR] tU = none := by decide +kernel
  rw [returnTyWith_eq, h, e, Option.map_some, convWith_app (by simp)]
  simp only [List.map_cons, List.map_nil, convWith, hs, class_U]
  rfl

/-- C68 fails for a method with two signatures: `[1].first(2)` is an integer. -/
theorem c68_overload_fails : (load [arrayDecl, hashDecl]).methods (nameOf "Array") false (nameOf "first") =
      some ⟨nameOf "first", false, [([], .cls tElem), ([], .app "::Array".toList [.cls tElem])]⟩ ∧
    returnTyWith U (load [arrayDecl, hashDecl]) (nameOf "Array") (nameOf "first") false [intR] = some intR := by
  have h : (load [arrayDecl, hashDecl]).returnType (nameOf "Array") (nameOf "first") false = some (.cls tElem) := rfl
  have e : (load [arrayDecl, hashDecl]).params (nameOf "Array") = arrayDecl.params := by
    have h : (load [arrayDecl, hashDecl]).decls (nameOf "Array") = some arrayDecl := (load_decls _).mpr ⟨[], [hashDecl], rfl, rfl, by decide⟩
    simp [Loader.params, h, show arrayDecl.kind ≠ .other by decide]
  have hs : substitution arrayDecl.params [intR] tElem = some intR := by decide +kernel
  refine ⟨rfl, ?_⟩
  rw [returnTyWith_eq, h, e, Option.map_some, convWith]
  simp only [hs]

/-- C68 fails for an array with elements of several types: only the first one is bound, so `[1, "a"].first` is an integer. -/
theorem c68_several_elements_fails : returnTyWith U (load [arrayDecl, hashDecl]) (nameOf "Array") (nameOf "first") false [intR, stringTy] = some intR := by
  have h : (load [arrayDecl, hashDecl]).returnType (nameOf "Array") (nameOf "first") false = some (.cls tElem) := rfl
  have e : (load [arrayDecl, hashDecl]).params (nameOf "Array") = arrayDecl.params := by
    have h : (load [arrayDecl, hashDecl]).decls (nameOf "Array") = some arrayDecl := (load_decls _).mpr ⟨[], [hashDecl], rfl, rfl, by decide⟩
    simp [Loader.params, h, show arrayDecl.kind ≠ .other by decide]
  have hs : substitution arrayDecl.params [intR, stringTy] tElem = some intR := by decide +kernel
  rw [returnTyWith_eq, h, e, Option.map_some, convWith]
  simp only [hs]

/-- C68 fails for a generic class of which the arguments are not known: `(1..3).first`, declared `() -> Elem`, is an `Elem`. -/
theorem c68_unbound_fails : returnTy U (load [⟨.cls, nameOf "Range", ["out Elem".toList], [⟨nameOf "first", false, [([], .cls tElem)]⟩]⟩])
    (nameOf "Range") (nameOf "first") false = some (.cls (nameOf "Elem")) := by
  have : className U tElem = .cls (nameOf "Elem") := ascii_class (by decide) (by decide) (by decide)
  simp only [returnTy]
  rw [show (load [⟨.cls, nameOf "Range", ["out Elem".toList], [⟨nameOf "first", false, [([], .cls tElem)]⟩]⟩]).returnType (nameOf "Range")
    (nameOf "first") false = some (.cls tElem) from rfl, Option.map_some, conv, this]

/-- C68 fails for `void`: a method that returns anything is said to return `nil`. -/
theorem c68_void_fails (R : Reading W) {v : W.V} (hv : ¬ W.inst (nameOf "NilClass") v) : Sat R .void v ∧ ¬ Desc W (conv U .void) v :=
  ⟨.void, by rw [conv, nilTy, Desc]; exact hv⟩

/-- C68 fails for a class that is opened again: `def m: () -> String | ...` adds a signature to `def m: () -> Integer`, but replaces
it. -/
theorem c68_reopened_fails : returnTy U (load [⟨.cls, nameOf "A", [], [⟨nameOf "m", false, [([], .cls "Integer".toList)]⟩]⟩,
      ⟨.cls, nameOf "A", [], [⟨nameOf "m", false, [([], .cls "String".toList)]⟩]⟩]) (nameOf "A") (nameOf "m") false = some stringTy := by
  have : className U "String".toList = stringTy := ascii_class (by decide) (by decide) (by decide)
  simp only [returnTy]
  rw [show (load [⟨.cls, nameOf "A", [], [⟨nameOf "m", false, [([], .cls "Integer".toList)]⟩]⟩,
      ⟨.cls, nameOf "A", [], [⟨nameOf "m", false, [([], .cls "String".toList)]⟩]⟩]).returnType (nameOf "A") (nameOf "m") false =
    some (.cls "String".toList) from rfl, Option.map_some, conv, this]

/-- C68 fails for a name that is written relative to the class it is in: `Error` in `class A` is `A::Error`, but is taken for
`::Error`. -/
theorem c68_relative_fails (R : Reading W) (hname : ∀ v, R.name "Error".toList v ↔ W.inst (nameOf "A::Error") v) {v : W.V}
    (hv : W.inst (nameOf "A::Error") v) (hv' : ¬ W.inst (nameOf "Error") v) : Sat R (.cls "Error".toList) v ∧ ¬ Desc W (conv U (.cls "Error".toList)) v := by
  have : className U "Error".toList = .cls (nameOf "Error") := ascii_class (by decide) (by decide) (by decide)
  exact ⟨.cls ((hname v).mpr hv), by rw [conv, this, Desc]; exact hv'⟩

end Verif.RbsTypes
