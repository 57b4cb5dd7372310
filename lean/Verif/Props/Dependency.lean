import Verif.Model.Dependency
import Verif.Lemmas.Bytes
import Verif.Lemmas.Arena
import Verif.Lemmas.Types
/-!
C28: the identity of a dependency manifest. C45: products match their manifest exactly and bind all or nothing.
-/
namespace Verif.Dependency
open Verif.Bytes Verif.Store

/-! ### specification -/

/-- What identifies one source: batch, logical path, digest and length of the content. -/
def entry (sha : Str → Str) (s : Source) : Nat × Str × Str × Nat := (s.batch, s.logical, sha s.content, s.content.length)

def Source.Small (s : Source) : Prop := s.batch < 2 ^ 32 ∧ s.logical.length < 2 ^ 64 ∧ s.content.length < 2 ^ 64

def Build.Ok (b : Build) : Prop := b.schema < 2 ^ 32 ∧ b.version.length < 2 ^ 64 ∧ b.parser.length < 2 ^ 64 ∧ b.lockSha.length = 32

structure Key.Ok (k : Key) : Prop where
  schema : k.schema < 2 ^ 32
  version : k.version.length < 2 ^ 64
  parser : k.parser.length < 2 ^ 64
  lock : k.lockSha.length = 32
  producer : k.producerSha.length = 32
  seed : k.seed.length = 16
  closure : k.closureSha.length = 32

/-- The fields of a manifest that must be identified, with the sizes a program can hold. -/
structure Input where
  build : Build
  producerSha : Str
  provider : Option Str
  identities : List Str
  sources : List Source

structure Input.Ok (i : Input) : Prop where
  build : i.build.Ok
  producer : i.producerSha.length = 32
  provider : ∀ f, i.provider = some f → f.length < 2 ^ 64
  count : i.identities.length < 2 ^ 64
  identities : ∀ f ∈ i.identities, f.length < 2 ^ 64
  sources : ∀ s ∈ i.sources, s.Small

def Input.bytes (sha : Str → Str) (i : Input) : List UInt8 := closureBytes sha i.build i.producerSha i.provider i.identities i.sources

/-! ### the encoding can be read back -/

theorem toLe4_inj {m n : Nat} (hm : m < 2 ^ 32) (hn : n < 2 ^ 32) (h : toLe 4 m = toLe 4 n) : m = n := toLe_inj (k := 4) hm hn h
theorem toLe8_inj {m n : Nat} (hm : m < 2 ^ 64) (hn : n < 2 ^ 64) (h : toLe 8 m = toLe 8 n) : m = n := toLe_inj (k := 8) hm hn h

theorem field_inj {a b r t : Str} (ha : a.length < 2 ^ 64) (hb : b.length < 2 ^ 64) (h : field a ++ r = field b ++ t) : a = b ∧ r = t := by
  unfold field at h
  rw [List.append_assoc, List.append_assoc] at h
  obtain ⟨h1, h2⟩ := List.append_inj h (by simp)
  have := toLe8_inj ha hb h1
  exact List.append_inj h2 this

theorem fields_inj {as bs : List Str} {r t : Str} (ha : ∀ a ∈ as, a.length < 2 ^ 64) (hb : ∀ b ∈ bs, b.length < 2 ^ 64)
    (hl : as.length = bs.length) (h : as.flatMap field ++ r = bs.flatMap field ++ t) : as = bs ∧ r = t := by
  induction as generalizing bs with
  | nil =>
    cases bs with
    | nil => exact ⟨rfl, h⟩
    | cons b bs => cases hl
  | cons a as ih =>
    cases bs with
    | nil => cases hl
    | cons b bs =>
      rw [List.flatMap_cons, List.flatMap_cons, List.append_assoc, List.append_assoc] at h
      obtain ⟨e, h⟩ := field_inj (ha a (by simp)) (hb b (by simp)) h
      obtain ⟨e2, e3⟩ := ih (fun x hx => ha x (by simp [hx])) (fun x hx => hb x (by simp [hx])) (by simpa using hl) h
      exact ⟨by rw [e, e2], e3⟩

theorem source_inj {sha : Str → Str} (hs : ∀ x, (sha x).length = 32) {a b : Source} {r t : Str} (ha : a.Small) (hb : b.Small)
    (h : sourceBytes sha a ++ r = sourceBytes sha b ++ t) : entry sha a = entry sha b ∧ r = t := by
  unfold sourceBytes at h
  simp only [List.append_assoc] at h
  obtain ⟨h1, h⟩ := List.append_inj h (by simp)
  have e1 := toLe4_inj ha.1 hb.1 h1
  obtain ⟨e2, h⟩ := field_inj ha.2.1 hb.2.1 h
  obtain ⟨e3, h⟩ := List.append_inj h (by rw [hs, hs])
  obtain ⟨h4, h⟩ := List.append_inj h (by simp)
  have e4 := toLe8_inj ha.2.2 hb.2.2 h4
  exact ⟨by simp [entry, e1, e2, e3, e4], h⟩

theorem sourceBytes_ne_nil (sha : Str → Str) (s : Source) : sourceBytes sha s ≠ [] := by
  intro h
  have := congrArg List.length h
  simp [sourceBytes] at this

theorem sources_inj {sha : Str → Str} (hs : ∀ x, (sha x).length = 32) {as bs : List Source} (ha : ∀ a ∈ as, a.Small) (hb : ∀ b ∈ bs, b.Small)
    (h : as.flatMap (sourceBytes sha) = bs.flatMap (sourceBytes sha)) : as.map (entry sha) = bs.map (entry sha) := by
  induction as generalizing bs with
  | nil =>
    cases bs with
    | nil => rfl
    | cons b bs =>
      rw [List.flatMap_nil, List.flatMap_cons] at h
      exact absurd (List.append_eq_nil_iff.mp h.symm).1 (sourceBytes_ne_nil _ _)
  | cons a as ih =>
    cases bs with
    | nil =>
      rw [List.flatMap_nil, List.flatMap_cons] at h
      exact absurd (List.append_eq_nil_iff.mp h).1 (sourceBytes_ne_nil _ _)
    | cons b bs =>
      rw [List.flatMap_cons, List.flatMap_cons] at h
      obtain ⟨e, h⟩ := source_inj hs (ha a (by simp)) (hb b (by simp)) h
      rw [List.map_cons, List.map_cons, e, ih (fun x hx => ha x (by simp [hx])) (fun x hx => hb x (by simp [hx])) h]

/-- The byte string hashed for a manifest determines every identity field and the entry of every source, in order. -/
theorem c28_unambiguous {sha : Str → Str} (hs : ∀ x, (sha x).length = 32) {i i' : Input} (h : i.Ok) (h' : i'.Ok)
    (he : i.bytes sha = i'.bytes sha) :
    i.build = i'.build ∧ i.producerSha = i'.producerSha ∧ i.provider = i'.provider ∧ i.identities = i'.identities ∧
    i.sources.map (entry sha) = i'.sources.map (entry sha) := by
  obtain ⟨⟨s, v, p, l⟩, prod, prov, ids, srcs⟩ := i
  obtain ⟨⟨s', v', p', l'⟩, prod', prov', ids', srcs'⟩ := i'
  obtain ⟨⟨b1, b2, b3, b4⟩, c1, c2, c3, c4, c5⟩ := h
  obtain ⟨⟨b1', b2', b3', b4'⟩, c1', c2', c3', c4', c5'⟩ := h'
  unfold Input.bytes closureBytes at he
  dsimp only at *
  obtain ⟨e1, he⟩ := List.append_inj he (by simp)
  have e1 := toLe4_inj b1 b1' e1
  obtain ⟨e2, he⟩ := field_inj b2 b2' he
  obtain ⟨e3, he⟩ := field_inj b3 b3' he
  obtain ⟨e4, he⟩ := List.append_inj he (by rw [b4, b4'])
  obtain ⟨e5, he⟩ := List.append_inj he (by rw [c1, c1'])
  have key : prov = prov' ∧ toLe 8 ids.length ++ (ids.flatMap field ++ srcs.flatMap (sourceBytes sha)) =
      toLe 8 ids'.length ++ (ids'.flatMap field ++ srcs'.flatMap (sourceBytes sha)) := by
    cases prov with
    | none =>
      cases prov' with
      | none => simp only [providerBytes, List.cons_append, List.nil_append, List.cons.injEq, true_and] at he; exact ⟨rfl, he⟩
      | some f' => simp only [providerBytes, List.cons_append, List.cons.injEq] at he; exact absurd he.1 (by decide)
    | some f =>
      cases prov' with
      | none => simp only [providerBytes, List.cons_append, List.cons.injEq] at he; exact absurd he.1 (by decide)
      | some f' =>
        simp only [providerBytes, List.cons_append, List.cons.injEq, true_and] at he
        obtain ⟨e, he⟩ := field_inj (c2 f rfl) (c2' f' rfl) he
        exact ⟨by rw [e], he⟩
  obtain ⟨e6, he⟩ := key
  obtain ⟨e7, he⟩ := List.append_inj he (by simp)
  have e7 := toLe8_inj c3 c3' e7
  obtain ⟨e8, he⟩ := fields_inj c4 c4' e7 he
  exact ⟨by rw [e1, e2, e3, e4], e5, e6, e8, sources_inj hs c5 c5' he⟩

/-- The byte string hashed for the cache id determines every field of the key. -/
theorem c28_key_unambiguous {k k' : Key} (h : k.Ok) (h' : k'.Ok) (he : keyBytes k = keyBytes k') : k = k' := by
  unfold keyBytes at he
  obtain ⟨e1, he⟩ := List.append_inj he (by simp)
  have e1 := toLe4_inj h.schema h'.schema e1
  obtain ⟨e2, he⟩ := field_inj h.version h'.version he
  obtain ⟨e3, he⟩ := field_inj h.parser h'.parser he
  obtain ⟨e4, he⟩ := List.append_inj he (by rw [h.lock, h'.lock])
  obtain ⟨e5, he⟩ := List.append_inj he (by rw [h.producer, h'.producer])
  obtain ⟨e6, e7⟩ := List.append_inj he (by rw [h.seed, h'.seed])
  obtain ⟨_, _, _, _, _, _, _⟩ := k
  obtain ⟨_, _, _, _, _, _, _⟩ := k'
  simp_all

/-! ### order -/

theorem noRepeats_iff (seen l : List Str) : noRepeats seen l = true ↔ l.Nodup ∧ ∀ x ∈ l, x ∉ seen := by
  induction l generalizing seen with
  | nil => simp [noRepeats]
  | cons p ps ih =>
    simp only [noRepeats, List.contains_eq_mem, List.nodup_cons, List.mem_cons, forall_eq_or_imp]
    split
    · rename_i h
      simp only [decide_eq_true_eq] at h
      simp [h]
    · rename_i h
      simp only [decide_eq_true_eq] at h
      rw [ih]
      constructor
      · rintro ⟨h1, h2⟩
        refine ⟨⟨fun hp => h2 p hp (by simp), h1⟩, h, fun x hx => fun hs => h2 x hx (by simp [hs])⟩
      · rintro ⟨⟨h1, h2⟩, h3, h4⟩
        refine ⟨h2, fun x hx hm => ?_⟩
        rcases List.mem_cons.mp hm with rfl | hm
        · exact h1 hx
        · exact h4 x hx hm

theorem map_toNat_inj {a b : Str} (h : a.map UInt8.toNat = b.map UInt8.toNat) : a = b :=
  List.map_injective_iff.mpr (fun _ _ h => UInt8.toNat_inj.mp h) h

/-- Sorting by a key that identifies the elements of the list forgets their order. -/
theorem sort_perm_eq {α : Type} (key : α → List Nat) {l l' : List α} (hk : ∀ a ∈ l, ∀ b ∈ l, key a = key b → a = b) (h : l.Perm l') :
    stableSort (leBy key) l = stableSort (leBy key) l' := by
  have o := leBy_order key
  refine stableSort_unique o (stableSort_sorted o l) ?_
  intro k
  have hp : ((stableSort (leBy key) l).filter (fun a => leBy key a k && leBy key k a)).Perm (l'.filter (fun a => leBy key a k && leBy key k a)) :=
    ((stableSort_perm l).trans h).filter _
  generalize hL : (stableSort (leBy key) l).filter (fun a => leBy key a k && leBy key k a) = L at *
  generalize l'.filter (fun a => leBy key a k && leBy key k a) = M at *
  have hone : ∀ a ∈ L, ∀ b ∈ L, a = b := by
    intro a ha b hb
    rw [← hL] at ha hb
    obtain ⟨a1, a2⟩ := List.mem_filter.mp ha
    obtain ⟨b1, b2⟩ := List.mem_filter.mp hb
    rw [Bool.and_eq_true] at a2 b2
    refine hk a ((stableSort_perm l).mem_iff.mp a1) b ((stableSort_perm l).mem_iff.mp b1) ?_
    exact (Types.lexLe_antisymm a2.1 a2.2).trans (Types.lexLe_antisymm b2.1 b2.2).symm
  cases L with
  | nil => exact hp.symm.eq_nil.symm
  | cons a L =>
    have h1 := List.eq_replicate_of_mem (fun b hb => hone b hb a List.mem_cons_self)
    have h2 := List.eq_replicate_of_mem (fun b hb => hone b (hp.mem_iff.mpr hb) a List.mem_cons_self)
    rw [h1, h2, hp.length_eq]

theorem sortSources_perm (l : List Source) : (sortSources l).Perm l := stableSort_perm l

/-- A manifest exists exactly when no logical path is listed twice. -/
theorem c28_accepted_iff (sha : Str → Str) (b : Build) (producerSha seed : Str) (provider : Option Str) (identities : List Str) (sources : List Source) :
    (newManifest sha b producerSha seed provider identities sources).isSome = true ↔ (sources.map Source.logical).Nodup := by
  unfold newManifest
  simp only
  have hp : ((sortSources sources).map Source.logical).Perm (sources.map Source.logical) := (sortSources_perm sources).map _
  split
  · rename_i h
    rw [noRepeats_iff] at h
    simpa using hp.nodup_iff.mp h.1
  · rename_i h
    rw [noRepeats_iff] at h
    simp only [Option.isSome_none, Bool.false_eq_true, false_iff]
    intro hn
    exact h ⟨hp.nodup_iff.mpr hn, by simp⟩

/-- The manifest does not depend on the order in which sources are listed. -/
theorem c28_order_independent (sha : Str → Str) (b : Build) (producerSha seed : Str) (provider : Option Str) (identities : List Str)
    {sources sources' : List Source} (h : sources.Perm sources') :
    newManifest sha b producerSha seed provider identities sources = newManifest sha b producerSha seed provider identities sources' := by
  by_cases hn : (sources.map Source.logical).Nodup
  · have : sortSources sources = sortSources sources' := by
      apply sort_perm_eq _ _ h
      intro a ha c hc e
      have e : a.logical = c.logical := map_toNat_inj (List.cons.inj e).2
      exact List.inj_on_of_nodup_map hn ha hc e
    unfold newManifest
    rw [this]
  · have hn' : ¬ (sources'.map Source.logical).Nodup := fun h' => hn ((h.map _).nodup_iff.mpr h')
    rw [← c28_accepted_iff sha b producerSha seed provider identities, Bool.not_eq_true, Option.isSome_eq_false_iff, Option.isNone_iff_eq_none] at hn hn'
    rw [hn, hn']

/-- Two manifests with the same cache id describe the same dependencies, unless the digest maps two different byte strings that were
actually hashed to the same value. -/
theorem c28_identity {sha : Str → Str} (hs : ∀ x, (sha x).length = 32) {i i' : Input} (h : i.Ok) (h' : i'.Ok) {seed seed' : Str}
    (hseed : seed.length = 16) (hseed' : seed'.length = 16) {m m' : Manifest}
    (hm : newManifest sha i.build i.producerSha seed i.provider i.identities i.sources = some m)
    (hm' : newManifest sha i'.build i'.producerSha seed' i'.provider i'.identities i'.sources = some m')
    (hid : cacheId sha m.key = cacheId sha m'.key)
    (hc1 : sha (keyBytes m.key) = sha (keyBytes m'.key) → keyBytes m.key = keyBytes m'.key)
    (hc2 : ∀ j j' : Input, j.Ok → j'.Ok → sha (j.bytes sha) = sha (j'.bytes sha) → j.bytes sha = j'.bytes sha) :
    seed = seed' ∧ i.build = i'.build ∧ i.producerSha = i'.producerSha ∧ i.provider = i'.provider ∧ i.identities = i'.identities ∧
    (i.sources.map (entry sha)).Perm (i'.sources.map (entry sha)) ∧ m.key = m'.key := by
  have ok : ∀ {i : Input} {seed : Str} {m : Manifest}, i.Ok → seed.length = 16 →
      newManifest sha i.build i.producerSha seed i.provider i.identities i.sources = some m →
      m.key.Ok ∧ m.key.seed = seed ∧ m.key.closureSha = sha (Input.bytes sha { i with sources := sortSources i.sources }) ∧
      Input.Ok { i with sources := sortSources i.sources } := by
    intro i seed m h hseed hm
    unfold newManifest at hm
    simp only at hm
    split at hm
    · cases hm
      refine ⟨⟨h.build.1, h.build.2.1, h.build.2.2.1, h.build.2.2.2, h.producer, hseed, hs _⟩, rfl, rfl, ?_⟩
      exact ⟨h.build, h.producer, h.provider, h.count, h.identities,
        fun s hsrc => h.sources s ((sortSources_perm _).mem_iff.mp hsrc)⟩
    · cases hm
  obtain ⟨k1, k2, k3, k4⟩ := ok h hseed hm
  obtain ⟨k1', k2', k3', k4'⟩ := ok h' hseed' hm'
  have hk := c28_key_unambiguous k1 k1' (hc1 (hex_inj hid))
  have hb := hc2 _ _ k4 k4' (by rw [← k3, ← k3', hk])
  obtain ⟨e1, e2, e3, e4, e5⟩ := c28_unambiguous hs k4 k4' hb
  refine ⟨by rw [← k2, ← k2', hk], e1, e2, e3, e4, ?_, hk⟩
  have p1 := ((sortSources_perm i.sources).map (entry sha)).symm
  have p2 := (sortSources_perm i'.sources).map (entry sha)
  have e5 : (sortSources i.sources).map (entry sha) = (sortSources i'.sources).map (entry sha) := e5
  exact p1.trans (e5 ▸ p2)

/-! ### logical paths -/

/-- Following a relative path segment by segment, as the operating system does: the depth below the start, `none` above it. -/
def walk : Nat → List Str → Option Nat
  | d, [] => some d
  | d, s :: l => if s = [] ∨ s = [46] then walk d l else if s = [46, 46] then (if d = 0 then none else walk (d - 1) l) else walk (d + 1) l

theorem walk_some (l : List Str) (h : ∀ s ∈ l, s ≠ [46, 46]) (d : Nat) : ∃ e, d ≤ e ∧ walk d l = some e := by
  induction l generalizing d with
  | nil => exact ⟨d, Nat.le_refl _, rfl⟩
  | cons s l ih =>
    have ih := ih (fun s hs => h s (by simp [hs]))
    simp only [walk]
    split
    · exact ih d
    · rw [if_neg (h s (by simp))]
      obtain ⟨e, he, hw⟩ := ih (d + 1)
      exact ⟨e, by omega, hw⟩

/-- An accepted logical path is relative and never leads outside the directory it is joined to. -/
theorem c28_path_inside {p : Str} (h : validLogical p = true) :
    p ≠ [] ∧ p.head? ≠ some 47 ∧ (∀ s ∈ splitSlash [] p, s ≠ [46, 46]) ∧ ∃ d, walk 0 (splitSlash [] p) = some d := by
  unfold validLogical at h
  rw [Bool.and_eq_true, Bool.and_eq_true] at h
  obtain ⟨⟨h1, h2⟩, h3⟩ := h
  have hno : ∀ s ∈ splitSlash [] p, s ≠ [46, 46] := by
    intro s hs e
    rw [List.all_eq_true] at h3
    have : Component.parentDir ∈ components p := by
      unfold components
      apply List.mem_append_right
      rw [List.mem_filterMap]
      exact ⟨s, hs, by rw [e]; decide⟩
    exact absurd (h3 _ this) (by decide)
  refine ⟨by rintro rfl; simp at h1, ?_, hno, ?_⟩
  · cases p with
    | nil => simp
    | cons c p =>
      intro e
      simp only [List.head?_cons, Option.some.injEq] at e
      subst e
      simp at h2
  · obtain ⟨e, -, hw⟩ := walk_some _ hno 0
    exact ⟨e, hw⟩

/-- The message promises normalized paths, but repeated slashes and inner dots are accepted: two spellings of one file are two
logical paths. -/
theorem c28_not_normalized :
    validLogical [97, 47, 98] = true ∧ validLogical [97, 47, 47, 98] = true ∧ validLogical [97, 47, 46, 47, 98] = true ∧
    components [97, 47, 98] = components [97, 47, 47, 98] ∧ components [97, 47, 98] = components [97, 47, 46, 47, 98] ∧
    validLogical [46, 47, 97] = false ∧ validLogical [97, 47, 46, 46] = false ∧ validLogical [47, 97] = false := by decide

/-! ### products -/

variable {F : Type}

/-- A product is accepted exactly when its files are those of the manifest, whatever the order. -/
theorem c45_product_iff (sha : Str → Str) (m : Manifest) (hm : (m.sources.map Source.logical).Nodup) (files : List (File F)) :
    (∃ p, newProduct sha m files = some p) ↔
      (files.map fun f => (f.logical, f.sha)).Perm (m.sources.map fun s => (s.logical, sha s.content)) := by
  let pk : Str × Str → List Nat := fun e => e.1.map UInt8.toNat
  have hsort : ∀ files : List (File F), (stableSort (leBy fileKey) files).map (fun f => (f.logical, f.sha)) =
      stableSort (leBy pk) (files.map fun f => (f.logical, f.sha)) := by
    intro files
    induction files with
    | nil => rfl
    | cons f l ih =>
      simp only [stableSort, List.map_cons]
      rw [← ih]
      generalize stableSort (leBy fileKey) l = l
      induction l with
      | nil => rfl
      | cons g l ih2 =>
        simp only [insertSorted, List.map_cons]
        have : leBy fileKey f g = leBy pk (f.logical, f.sha) (g.logical, g.sha) := rfl
        rw [this]
        split
        · rfl
        · rw [List.map_cons, ih2]
  have hinj : ∀ a ∈ (m.sources.map fun s => (s.logical, sha s.content)), ∀ b ∈ (m.sources.map fun s => (s.logical, sha s.content)),
      pk a = pk b → a = b := by
    intro a ha b hb e
    obtain ⟨s, hs, rfl⟩ := List.mem_map.mp ha
    obtain ⟨t, ht, rfl⟩ := List.mem_map.mp hb
    have : s = t := List.inj_on_of_nodup_map hm hs ht (map_toNat_inj e)
    rw [this]
  constructor
  · rintro ⟨p, hp⟩
    unfold newProduct at hp
    simp only at hp
    split at hp; · cases hp
    rename_i h
    have h := Classical.not_not.mp h
    rw [hsort] at h
    exact (stableSort_perm (le := leBy pk) _).symm.trans (h ▸ stableSort_perm _)
  · intro hp
    unfold newProduct
    simp only
    rw [if_neg]
    · exact ⟨_, rfl⟩
    · simp only [ne_eq, Classical.not_not]
      rw [hsort]
      exact (sort_perm_eq pk hinj hp.symm).symm

theorem newProduct_eq {sha : Str → Str} {m : Manifest} {files : List (File F)} {p : Product F} (h : newProduct sha m files = some p) :
    p.key = m.key ∧ p.files = stableSort (leBy fileKey) files := by
  unfold newProduct at h
  simp only at h
  split at h; · cases h
  cases h
  exact ⟨rfl, rfl⟩

/-- A stored product is restored unchanged for the manifest it was made for, and for no manifest with another key. -/
theorem c45_restore {sha : Str → Str} {m : Manifest} (hm : (m.sources.map Source.logical).Nodup) {files : List (File F)} {p : Product F}
    (h : newProduct sha m files = some p) :
    restore sha m (persist sha p) = some p ∧ ∀ m' : Manifest, m'.key ≠ m.key → restore sha m' (persist sha p) = none := by
  obtain ⟨hk, hf⟩ := newProduct_eq h
  have hperm := (c45_product_iff sha m hm files).mp ⟨p, h⟩
  have hlen : p.files.length = m.sources.length := by
    have := hperm.length_eq
    rw [hf, (stableSort_perm files).length_eq]
    simpa using this
  constructor
  · unfold restore persist
    simp only [ne_eq, not_true_eq_false, if_false, hk, hlen]
    unfold newProduct at h ⊢
    simp only at h ⊢
    rw [hf, stableSort_of_sorted (stableSort_sorted (leBy_order _) files)]
    split at h
    · cases h
    · rename_i hne
      rw [if_neg hne]
      obtain ⟨_, _⟩ := p
      simp only at hk hf
      rw [hk, hf]
  · intro m' hne
    unfold restore persist
    simp only [ne_eq, not_true_eq_false, if_false]
    split; · rfl
    rw [if_pos]
    rw [hk]
    exact fun e => hne e.symm

/-- Whatever is restored carries the key of the asking manifest and exactly its files. -/
theorem c45_restore_sound {sha : Str → Str} {m : Manifest} (hm : (m.sources.map Source.logical).Nodup) {x : Persisted F} {p : Product F}
    (h : restore sha m x = some p) :
    p.key = m.key ∧ x.key = m.key ∧ p.files.Perm x.files ∧
    (p.files.map fun f => (f.logical, f.sha)).Perm (m.sources.map fun s => (s.logical, sha s.content)) := by
  unfold restore at h
  split at h; · cases h
  split at h; · cases h
  split at h; · cases h
  rename_i hk
  split at h; · cases h
  obtain ⟨e1, e2⟩ := newProduct_eq h
  have hp : p.files.Perm x.files := e2 ▸ stableSort_perm _
  exact ⟨e1, Classical.not_not.mp hk, hp, (hp.map _).trans ((c45_product_iff sha m hm x.files).mp ⟨p, h⟩)⟩

/-! ### binding -/

theorem insertAll_eq (l : List (Source × File F × Str)) (e : Engine F) (uris : List Str) :
    insertAll l e uris =
      (e ++ l.flatMap (fun x => [.register x.1.physical x.1.content x.1.package, .facts x.2.1.facts]), uris ++ l.map fun x => x.2.2) := by
  induction l generalizing e uris with
  | nil => simp [insertAll]
  | cons x l ih =>
    obtain ⟨s, t, u⟩ := x
    simp [insertAll, ih]

theorem prepare_some {sha : Str → Str} {toUri : Str → Option Str} {files : List (File F)} {sources : List Source}
    {l : List (Source × File F × Str)} (h : prepare sha toUri files sources = some l) :
    l.map (fun x => x.1) = sources ∧ ∀ x ∈ l, x.2.1 ∈ files ∧ x.2.1.logical = x.1.logical ∧ x.2.1.sha = sha x.1.content ∧ toUri x.1.physical = some x.2.2 := by
  induction sources generalizing l with
  | nil =>
    cases h
    simp
  | cons s rest ih =>
    simp only [prepare] at h
    split at h; · cases h
    rename_i t ht
    split at h; · cases h
    rename_i hsha
    split at h; · cases h
    rename_i u hu
    obtain ⟨l', hl', rfl⟩ := Option.map_eq_some_iff.mp h
    obtain ⟨h1, h2⟩ := ih hl'
    refine ⟨by simp [h1], ?_⟩
    intro x hx
    rcases List.mem_cons.mp hx with rfl | hx
    · have hm := List.mem_of_getLast? ht
      obtain ⟨m1, m2⟩ := List.mem_filter.mp hm
      exact ⟨m1, by simpa using m2, Classical.not_not.mp hsha, hu⟩
    · exact h2 x hx

theorem eraseDups_length {α : Type} [BEq α] [LawfulBEq α] : ∀ (n : Nat) (l : List α), l.length ≤ n →
    l.eraseDups.length ≤ l.length ∧ (l.eraseDups.length = l.length → l.Nodup) := by
  intro n
  induction n with
  | zero =>
    intro l hl
    have : l = [] := List.length_eq_zero_iff.mp (by omega)
    subst this
    simp
  | succ n ih =>
    intro l hl
    cases l with
    | nil => simp
    | cons a l =>
      rw [List.eraseDups_cons]
      have hf : (l.filter (fun b => !b == a)).length ≤ l.length := List.length_filter_le _ _
      simp only [List.length_cons] at hl ⊢
      obtain ⟨i1, i2⟩ := ih (l.filter (fun b => !b == a)) (by omega)
      refine ⟨by omega, ?_⟩
      intro he
      have hfl : (l.filter (fun b => !b == a)).length = l.length := by omega
      rw [List.length_filter_eq_length_iff] at hfl
      have hself : l.filter (fun b => !b == a) = l := List.filter_eq_self.mpr hfl
      rw [hself] at i2 he
      rw [List.nodup_cons]
      refine ⟨?_, i2 (by omega)⟩
      intro ha
      simpa using hfl a ha

/-- Binding either leaves the engine alone and fails, or the product has one file for each source and no two with the same
path, and the sources of the manifest are registered, each once and in order, each followed
by the facts of a product file with that logical path and that content. -/
theorem c45_all_or_nothing (sha : Str → Str) (toUri : Str → Option Str) (doResolve : Bool) (p : Product F) (m : Manifest) (e : Engine F) :
    bind sha toUri doResolve p m e = (e, none) ∨
    p.key = m.key ∧ (p.files.map File.logical).Nodup ∧ p.files.length = m.sources.length ∧ ∃ files : List (File F), ∃ uris : List Str,
      List.Forall₂ (fun (s : Source) f => f ∈ p.files ∧ f.logical = s.logical ∧ f.sha = sha s.content) m.sources files ∧
      List.Forall₂ (fun (s : Source) u => toUri s.physical = some u) m.sources uris ∧
      bind sha toUri doResolve p m e =
        (e ++ ((m.sources.zip files).flatMap fun x => [.register x.1.physical x.1.content x.1.package, .facts x.2.facts]) ++
          (if doResolve = true ∧ m.sources ≠ [] then [.resolve] else []), some uris) := by
  unfold bind
  split; · exact .inl rfl
  rename_i hk
  split; · exact .inl rfl
  rename_i hcount
  push Not at hcount
  split
  · exact .inl rfl
  · rename_i l hl
    right
    obtain ⟨h1, h2⟩ := prepare_some hl
    refine ⟨Classical.not_not.mp hk, (eraseDups_length _ _ (Nat.le_refl _)).2 (by rw [List.length_map]; exact hcount.1), (by omega), l.map (fun x => x.2.1), l.map (fun x => x.2.2), ?_, ?_, ?_⟩
    · rw [← h1, List.forall₂_map_left_iff, List.forall₂_map_right_iff, List.forall₂_same]
      intro x hx
      obtain ⟨a, b, c, -⟩ := h2 x hx
      exact ⟨a, b, c⟩
    · rw [← h1, List.forall₂_map_left_iff, List.forall₂_map_right_iff, List.forall₂_same]
      intro x hx
      exact (h2 x hx).2.2.2
    · rw [insertAll_eq]
      have e1 : (m.sources.zip (l.map fun x => x.2.1)).flatMap (fun x => [Action.register x.1.physical x.1.content x.1.package, .facts x.2.facts]) =
          l.flatMap (fun x => [.register x.1.physical x.1.content x.1.package, .facts x.2.1.facts]) := by
        rw [← h1]
        clear hl h1 h2
        induction l with
        | nil => rfl
        | cons x l ih => simp [ih]
      rw [e1]
      have e2 : (m.sources ≠ []) ↔ l ≠ [] := by rw [← h1]; simp
      simp only [List.nil_append]
      by_cases hd : doResolve = true
      · by_cases hl0 : l = []
        · subst hl0
          simp [hd, e2]
        · rw [if_pos (by simp [hd, hl0]), if_pos ⟨hd, e2.mpr hl0⟩]
      · rw [if_neg (by simp [hd]), if_neg (by simp [hd])]
        simp

theorem eraseDups_of_nodup {α : Type} [BEq α] [LawfulBEq α] {l : List α} (h : l.Nodup) : l.eraseDups = l := by
  induction l with
  | nil => rfl
  | cons a l ih =>
    rw [List.nodup_cons] at h
    rw [List.eraseDups_cons]
    have : l.filter (fun b => !b == a) = l := by
      rw [List.filter_eq_self]
      intro b hb
      have : b ≠ a := fun e => h.1 (e ▸ hb)
      simp [this]
    rw [this, ih h.2]

/-- A product made for a manifest (or restored for it) always binds to it, given that every path is a valid file URI. -/
theorem c45_bind_succeeds {sha : Str → Str} {toUri : Str → Option Str} {m : Manifest} (hm : (m.sources.map Source.logical).Nodup)
    {files : List (File F)} {p : Product F} (h : newProduct sha m files = some p) (hu : ∀ s ∈ m.sources, (toUri s.physical).isSome = true)
    (doResolve : Bool) (e : Engine F) : ∃ e' uris, bind sha toUri doResolve p m e = (e', some uris) := by
  obtain ⟨hk, hf⟩ := newProduct_eq h
  have hperm : (p.files.map fun f => (f.logical, f.sha)).Perm (m.sources.map fun s => (s.logical, sha s.content)) := by
    rw [hf]
    exact ((stableSort_perm files).map _).trans ((c45_product_iff sha m hm files).mp ⟨p, h⟩)
  have hpl : (p.files.map File.logical).Perm (m.sources.map Source.logical) := by
    have := hperm.map Prod.fst
    simpa [List.map_map, Function.comp_def] using this
  have hnd : (p.files.map File.logical).Nodup := hpl.nodup_iff.mpr hm
  have hprep : ∀ src : List Source, (∀ s ∈ src, s ∈ m.sources) → ∃ l, prepare sha toUri p.files src = some l := by
    intro src hsrc
    induction src with
    | nil => exact ⟨[], rfl⟩
    | cons s rest ih =>
      obtain ⟨l, hl⟩ := ih (fun x hx => hsrc x (by simp [hx]))
      have hs := hsrc s (by simp)
      have hmem : (s.logical, sha s.content) ∈ p.files.map fun f => (f.logical, f.sha) :=
        hperm.mem_iff.mpr (List.mem_map.mpr ⟨s, hs, rfl⟩)
      obtain ⟨f, hfm, hfe⟩ := List.mem_map.mp hmem
      obtain ⟨f1, f2⟩ := Prod.mk.inj hfe
      have hfind : findTemplate p.files s.logical = some f := by
        unfold findTemplate
        have hall : ∀ g ∈ p.files.filter (fun f => f.logical = s.logical), g = f := by
          intro g hg
          obtain ⟨g1, g2⟩ := List.mem_filter.mp hg
          have g2 : g.logical = s.logical := by simpa using g2
          exact List.inj_on_of_nodup_map hnd g1 hfm (g2.trans f1.symm)
        have hin : f ∈ p.files.filter (fun f => f.logical = s.logical) := List.mem_filter.mpr ⟨hfm, by simp [f1]⟩
        have hne : p.files.filter (fun f => f.logical = s.logical) ≠ [] := List.ne_nil_of_mem hin
        rw [List.getLast?_eq_some_getLast hne]
        exact congrArg some (hall _ (List.getLast_mem hne))
      obtain ⟨u, hu'⟩ := Option.isSome_iff_exists.mp (hu s hs)
      simp only [prepare, hfind, f2, hu', hl, ne_eq, not_true_eq_false, if_false, Option.map_some]
      exact ⟨_, rfl⟩
  obtain ⟨l, hl⟩ := hprep m.sources (fun _ h => h)
  have hc : templateCount p.files = p.files.length := by
    unfold templateCount
    rw [eraseDups_of_nodup hnd, List.length_map]
  have hc2 : p.files.length = m.sources.length := by simpa using hpl.length_eq
  unfold bind
  simp only [hk, hc, hc2, hl, ne_eq, not_true_eq_false, if_false, or_self]
  split
  · exact ⟨_, _, rfl⟩
  · exact ⟨_, _, rfl⟩

/-! ### examples -/

def exSha (x : Str) : Str := toLe 32 (x.length + 7)
def exBuild : Build := { schema := 6, version := [49], parser := [50], lockSha := List.replicate 32 1 }
def exA : Source := { batch := 0, logical := [97], physical := [47, 97], content := [1, 2], package := ([103], [49]) }
def exB : Source := { batch := 0, logical := [98], physical := [47, 98], content := [1, 2, 3], package := ([103], [49]) }

set_option maxRecDepth 20000 in
theorem c28_example :
    (newManifest exSha exBuild (List.replicate 32 2) (List.replicate 16 3) none [[103]] [exA, exB]).map (fun m => m.key) =
      (newManifest exSha exBuild (List.replicate 32 2) (List.replicate 16 3) none [[103]] [exB, exA]).map (fun m => m.key) ∧
    (newManifest exSha exBuild (List.replicate 32 2) (List.replicate 16 3) none [[103]] [exA, exB]).isSome = true ∧
    (newManifest exSha exBuild (List.replicate 32 2) (List.replicate 16 3) none [[103]] [exA, exA]).isSome = false ∧
    Input.bytes exSha ⟨exBuild, List.replicate 32 2, some [], [], []⟩ ≠ Input.bytes exSha ⟨exBuild, List.replicate 32 2, none, [], []⟩ ∧
    -- moving a byte between two identities changes the bytes
    Input.bytes exSha ⟨exBuild, List.replicate 32 2, none, [[1, 2], [3]], []⟩ ≠ Input.bytes exSha ⟨exBuild, List.replicate 32 2, none, [[1], [2, 3]], []⟩ := by
  decide

def exManifest : Manifest :=
  { key := { schema := 6, version := [], parser := [], lockSha := [], producerSha := [], seed := [], closureSha := [] }, sources := [exA, exB] }

theorem c45_example :
    let fa : File Nat := ⟨[97], exSha [1, 2], 10⟩
    let fb : File Nat := ⟨[98], exSha [1, 2, 3], 20⟩
    (∃ p, newProduct exSha exManifest [fb, fa] = some p ∧
      bind exSha some true p exManifest [] =
        ([.register [47, 97] [1, 2] ([103], [49]), .facts 10, .register [47, 98] [1, 2, 3] ([103], [49]), .facts 20, .resolve],
         some [[47, 97], [47, 98]])) ∧
    newProduct exSha exManifest [fa] = none ∧
    -- the second source has no file URI: nothing is registered, not even the first
    bind exSha (fun s => if s = [47, 98] then none else some s) true ⟨exManifest.key, [fa, fb]⟩ exManifest [] = ([], none) := by
  refine ⟨⟨_, rfl, rfl⟩, rfl, rfl⟩

end Verif.Dependency
