import Verif.Model.MethodLookup

/-!
Model of the resolution of a method reference with the cache of one resolve pass:
`crates/ruby-analysis/src/engine/resolution.rs` 15-37 (`MethodLookupChainCache`), 1028-1036 (`resolve_method_reference`),
1089-1343 (`resolve_method_reference_with_chain_cache`), 2080-2119, 2381-2415, 2493-2525, 2574-2616, 3074-3087, with
`core/method_store.rs` 539-578 (`effective_fact_matching_owner_name`) and 598-613 (`ruby_method_names_for_owner`).

Left out: chains, ancestry, the metaclass and unresolved dependencies are parameters here (they are modelled in
`Verif.Model.Mro`).  Names are not interned: owners stand for their ids.  The set of sources of unresolved edges in the
cache is part of `broken`.  The fully qualified name of a fact is its owner and its name.  The recursion of the function has
fuel: running out of fuel stands for a recursion that has not ended.
-/
namespace Verif.MethodReference

open Verif.Visibility Verif.MethodLookup

/-- What the resolution of references reads from the engine. -/
structure Engine where
  base : Base
  /-- `method_lookup_chain_without_metaclass_with_fallback`, with its `allow_top_level_fallback` -/
  chainWith : Owner → Bool → List Owner
  /-- `method_lookup_chain_has_unresolved_dependency_from_sources` -/
  broken : Owner → Bool
  /-- `metaclass_namespace_for_object` -/
  metaclass : Owner → Option Owner
  /-- `build_mro` with and without edges that are not proven -/
  broad : Owner → List Owner
  proven : Owner → List Owner

/-- The constants `BasicObject`, `Object`, `Kernel`, `Module`, `Class`. -/
def universalNames : List Nat := [0, 1, 2, 3, 4]

/-- resolution.rs 2107-2119 `is_universal_open_root`. -/
def universal (o : Owner) : Bool :=
  match o.parts with
  | [] => true
  | [x] => decide (x ∈ universalNames)
  | _ => false

/-- `MethodLookupResult`. -/
inductive Res where
  | missing
  | unique (f : Fact)
  | ambiguous (owner : Owner) (name : Nat)
deriving DecidableEq, Repr

/-- `StoredMethodFactMatch`. -/
inductive Match where
  | missing
  | unique (f : Fact)
  | ambiguous
deriving DecidableEq, Repr

/-- core/method_store.rs 539-578 `effective_fact_matching_owner_name`. -/
def effectiveMatch (B : Base) (o : Owner) (m : Nat) : Match :=
  let ids := B.facts.filter (fun f => decide (f.owner = o ∧ f.name = m))
  if ids.any (fun f => decide (f.avail = .absent)) then .missing
  else
    match ids.filter (fun f => !ids.any (fun g => decide (g.avail = .unavailable)) || decide (f.avail = .unavailable)) with
    | [] => .missing
    | f :: rest => if rest.any (fun g => decide (g ≠ f)) then .ambiguous else .unique f

/-- Stub and signature files. -/
def coreFact (f : Fact) : Bool := decide (f.kind = .stub ∨ f.kind = .signature)

/-- resolution.rs 2080-2105 `non_core_fact_requires_ancestry_proof`. -/
def needsProof (n : Owner) (f : Fact) (crossed : Bool) : Bool :=
  if n = f.owner then false else if coreFact f then false else crossed

/-- resolution.rs 1113-1154: the walk over the chain of the receiver. -/
def walkOwn (E : Engine) (n : Owner) (m : Nat) : Bool → List Owner → Res
  | _, [] => .missing
  | crossed, o :: rest =>
    let crossed := crossed || universal o
    match effectiveMatch E.base o m with
    | .missing => walkOwn E n m crossed rest
    | .unique f => if needsProof n f crossed then .ambiguous n m else .unique f
    | .ambiguous => .ambiguous o m

/-- resolution.rs 1234-1275: the walk over the chain of the metaclass. -/
def walkMeta (E : Engine) (n k : Owner) (m : Nat) : List Owner → Res
  | [] => .missing
  | o :: rest =>
    match effectiveMatch E.base o m with
    | .missing => walkMeta E n k m rest
    | .unique f => if needsProof n f true then .ambiguous k m else .unique f
    | .ambiguous => .ambiguous o m

/-- `MethodLookupChainCache` (resolution.rs 15-22). -/
structure Cache where
  chains : Owner → Option (List Owner)
  metaMethods : Owner → Nat → Option Res
  broken : Owner → Option Bool
  unproven : Owner → Option (List Nat)

/-- `MethodLookupChainCache::new`. -/
def Cache.empty : Cache := ⟨fun _ => none, fun _ _ => none, fun _ => none, fun _ => none⟩

/-- resolution.rs 2381-2415 `method_lookup_chain_has_unresolved_dependency_cached`. -/
def brokenCached (E : Engine) (c : Cache) (o : Owner) : Bool × Cache :=
  match c.broken o with
  | some b => (b, c)
  | none => (E.broken o, { c with broken := fun x => if x = o then some (E.broken o) else c.broken x })

/-- resolution.rs 2493-2525 `method_lookup_chain_for_reference_cached`. -/
def chainCached (E : Engine) (c : Cache) (o : Owner) : List Owner × Cache :=
  match c.chains o with
  | some l => (l, c)
  | none =>
    let allow := !(brokenCached E c o).1
    let c' := (brokenCached E c o).2
    (E.chainWith o allow, { c' with chains := fun x => if x = o then some (E.chainWith o allow) else c'.chains x })

/-- resolution.rs 1225-1296: the fallback through the metaclass. -/
def metaStage (E : Engine) (c : Cache) (n : Owner) (m : Nat) : Res × Cache :=
  match E.metaclass n with
  | none => (.missing, c)
  | some k =>
    match c.metaMethods k m with
    | some r => (r, c)
    | none =>
      let r := walkMeta E n k m (chainCached E c k).1
      let c' := (chainCached E c k).2
      (r, { c' with metaMethods := fun x y => if x = k ∧ y = m then some r else c'.metaMethods x y })

/-- resolution.rs 2580-2598: the names of the methods of the ancestors of a root that are not proven. -/
def unprovenNames (E : Engine) (root : Owner) : List Nat :=
  ((E.broad root).filter (fun o => !decide (o ∈ E.proven root))).flatMap fun o =>
    (E.base.facts.filter (fun f => decide (f.owner = o))).map (·.name)

/-- resolution.rs 2574-2616 `unproven_universal_method_exists`. -/
def unprovenCached (E : Engine) (m : Nat) : Cache → List Owner → Bool × Cache
  | c, [] => (false, c)
  | c, r :: rest =>
    match c.unproven r with
    | some l => if decide (m ∈ l) then (true, c) else unprovenCached E m c rest
    | none =>
      let l := unprovenNames E r
      let c' := { c with unproven := fun x => if x = r then some l else c.unproven x }
      if decide (m ∈ l) then (true, c') else unprovenCached E m c' rest

/-- Order of ranges. -/
def rangesLe : List Nat → List Nat → Bool
  | [], _ => true
  | _ :: _, [] => false
  | a :: l, b :: l' => if a < b then true else if b < a then false else rangesLe l l'

/-- resolution.rs 1165-1167: order by printed owner and ranges. -/
def keyLe (B : Base) (a b : Callee) : Bool :=
  if B.ownerLe a.owner b.owner then
    if B.ownerLe b.owner a.owner then rangesLe a.ranges b.ranges else true
  else false

/-- The outcome of the search through the includers. -/
inductive Via where
  | pass
  | panic
  | found (r : Res)
deriving DecidableEq, Repr

/-- resolution.rs 1157-1164: the exact callees with definitions. -/
def exactCallees (B : Base) (n : Owner) (m : Nat) : List Callee :=
  ((MethodLookup.resolve B n m true none).getD []).filter (fun c => decide (c.how = .exact) && !c.ranges.isEmpty)

/-- resolution.rs 1156-1211: the search through the includers of a module. -/
def includerStage (B : Base) (n : Owner) (m : Nat) : Via :=
  if B.isModule n then
    let callees := dedupAdj (stableSort (keyLe B) (exactCallees B n m))
    let owners := dedupAdj (stableSort B.ownerLe (callees.map (·.owner)))
    if owners.length > 1 then .found (.ambiguous n m)
    else
      match owners.getLast? with
      | none => .pass
      | some o =>
        let ranges := callees.flatMap (·.ranges)
        match stableSort (fun x y => decide (x.pos ≤ y.pos)) (B.facts.filter (fun f => decide ((f.owner = o ∧ f.name = m) ∧ f.pos ∈ ranges))) with
        | f :: _ => .found (.unique f)
        | [] => .panic
  else .pass

/-- Why there is no answer. -/
inductive Err where
  | fuel
  | panic
deriving DecidableEq, Repr

/-- resolution.rs 1298-1308: the search through the targets of the execution context. -/
def appStage (look : Cache → Owner → Except Err (Res × Cache)) : Cache → List Owner → List Fact → Bool → Except Err (List Fact × Bool × Cache)
  | c, [], fs, amb => .ok (fs, amb, c)
  | c, a :: rest, fs, amb =>
    match look c a with
    | .error e => .error e
    | .ok (.unique f, c') => appStage look c' rest (fs ++ [f]) amb
    | .ok (.ambiguous _ _, c') => appStage look c' rest fs true
    | .ok (.missing, c') => appStage look c' rest fs amb

/-- resolution.rs 3074-3087 `default_basic_object_method_missing_fact`. -/
def defaultFact (f : Fact) : Bool := decide (f.owner = basicObject ∧ f.name = methodMissingName) && coreFact f

/-- resolution.rs 1327-1338: the default `method_missing` means that the method is missing. -/
def unlessDefault : Res → Res
  | .unique f => if defaultFact f then .missing else .unique f
  | r => r

/-- resolution.rs 1309-1315: order by range and printed name. -/
def factLe (B : Base) (a b : Fact) : Bool :=
  if a.pos < b.pos then true else if b.pos < a.pos then false
  else if B.ownerLe a.owner b.owner then if B.ownerLe b.owner a.owner then decide (a.name ≤ b.name) else true else false

/-- resolution.rs 1089-1343 `resolve_method_reference_with_chain_cache`. -/
def lookup (E : Engine) : Nat → Cache → Owner → Nat → Except Err (Res × Cache)
  | 0, _, _, _ => .error .fuel
  | fuel + 1, c, n, m =>
    if !E.base.known n then .ok (.missing, c)
    else
      let chain := (chainCached E c n).1
      let c1 := (chainCached E c n).2
      match walkOwn E n m false chain with
      | .unique f => .ok (.unique f, c1)
      | .ambiguous o x => .ok (.ambiguous o x, c1)
      | .missing =>
        match includerStage E.base n m with
        | .panic => .error .panic
        | .found r => .ok (r, c1)
        | .pass =>
          if (brokenCached E c1 n).1 then .ok (.missing, (brokenCached E c1 n).2)
          else
            let c2 := (brokenCached E c1 n).2
            match metaStage E c2 n m with
            | (.unique f, c3) => .ok (.unique f, c3)
            | (.ambiguous o x, c3) => .ok (.ambiguous o x, c3)
            | (.missing, c3) =>
              match appStage (fun c a => lookup E fuel c a m) c3 (E.base.applications n) [] false with
              | .error e => .error e
              | .ok (fs, amb, c4) =>
                let facts := dedupAdj (stableSort (factLe E.base) fs)
                if amb || decide (facts.length > 1) then .ok (.ambiguous n m, c4)
                else
                  match facts.getLast? with
                  | some f => .ok (.unique f, c4)
                  | none =>
                    match unprovenCached E m c4 (chain.filter universal) with
                    | (true, c5) => .ok (.ambiguous n m, c5)
                    | (false, c5) =>
                      if m ≠ methodMissingName then
                        match lookup E fuel c5 n methodMissingName with
                        | .error e => .error e
                        | .ok (r, c6) => .ok (unlessDefault r, c6)
                      else .ok (.missing, c5)

/-- resolution.rs 1028-1036 `resolve_method_reference`: a lookup with a fresh cache. -/
def reference (E : Engine) (fuel : Nat) (n : Owner) (m : Nat) : Except Err Res :=
  match lookup E fuel .empty n m with
  | .error e => .error e
  | .ok (r, _) => .ok r

/-- engine/diagnostics.rs 300-330: the references of a pass, one after the other with one cache. -/
def pass (E : Engine) (fuel : Nat) : Cache → List (Owner × Nat) → Except Err (List Res × Cache)
  | c, [] => .ok ([], c)
  | c, q :: rest =>
    match lookup E fuel c q.1 q.2 with
    | .error e => .error e
    | .ok (r, c') =>
      match pass E fuel c' rest with
      | .error e => .error e
      | .ok (rs, c'') => .ok (r :: rs, c'')

end Verif.MethodReference
