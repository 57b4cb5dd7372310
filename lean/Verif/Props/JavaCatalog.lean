import Verif.Spec.JavaCatalog
import Verif.Props.CheckReport
/-!
C87: the Java classes of a class path.
-/
namespace Verif.JavaCatalog
open Verif.CheckReport (Text Path natLe listLe pairLe pathLe Lin lin_pair lin_map lin_text lin_path lin_order)

/-- What is held while the classes are added: the entries are the first declarations, and the duplicates the later ones. -/
structure Holds (seen : List Declaration) (b : Building) : Prop where
  get : ∀ n, get b.classes n = firstOf seen n
  dup : b.duplicates = laterOf [] seen
  nodup : (b.classes.map (·.1)).Nodup
  count : b.classes.length + b.duplicates.length = seen.length
  name : ∀ p ∈ b.classes, p.2.cls.name = p.1

theorem later_append (seen ds : List Declaration) (d : Declaration) : laterOf seen (ds ++ [d]) = laterOf seen ds ++
    (match firstOf (seen ++ ds) d.cls.name with
      | some w => [⟨d.cls.name, w.path, d.path⟩]
      | none => []) := by
  induction ds generalizing seen with
  | nil =>
    simp only [List.nil_append, List.append_nil, laterOf]
    cases firstOf seen d.cls.name <;> rfl
  | cons e ds ih =>
    simp only [List.cons_append, laterOf]
    have hs : seen ++ [e] ++ ds = seen ++ e :: ds := by simp
    cases firstOf seen e.cls.name with
    | none => simp only; rw [ih, hs]
    | some w => simp only; rw [ih, hs]; rfl

theorem firstOf_append (seen : List Declaration) (d : Declaration) (n : Text) : firstOf (seen ++ [d]) n =
    match firstOf seen n with
    | some w => some w
    | none => if d.cls.name = n then some d else none := by
  unfold firstOf
  rw [List.find?_append]
  cases seen.find? (fun d => decide (d.cls.name = n)) with
  | some w => rfl
  | none => by_cases h : d.cls.name = n <;> simp [h]

theorem get_append (cs : List (Text × Declaration)) (m : Text) (d : Declaration) (n : Text) : get (cs ++ [(m, d)]) n =
    match get cs n with
    | some w => some w
    | none => if m = n then some d else none := by
  unfold get
  rw [List.find?_append]
  cases cs.find? (fun p => decide (p.1 = n)) with
  | some w => rfl
  | none => by_cases h : m = n <;> simp [h]

theorem get_none (cs : List (Text × Declaration)) (n : Text) (h : get cs n = none) : n ∉ cs.map (·.1) := by
  intro hm
  obtain ⟨p, hp, rfl⟩ := List.mem_map.1 hm
  unfold get at h
  rw [Option.map_eq_none_iff] at h
  have := List.find?_eq_none.1 h p hp
  simp at this

theorem addClass_holds (a : Artifact) (seen : List Declaration) (b : Building) (x : Archived) (h : Holds seen b) :
    Holds (seen ++ [⟨x.cls, a.path, a.fingerprint, x.entry, x.release⟩]) (addClass a b x) := by
  have hg := h.get x.cls.name
  have hl := later_append [] seen ⟨x.cls, a.path, a.fingerprint, x.entry, x.release⟩
  simp only [List.nil_append] at hl
  unfold addClass
  cases e : get b.classes x.cls.name with
  | some old =>
    rw [e] at hg
    rw [← hg] at hl
    refine ⟨fun n => ?_, ?_, h.nodup, ?_, h.name⟩
    · dsimp only
      rw [h.get n, firstOf_append]
      cases e2 : firstOf seen n with
      | some w => rfl
      | none =>
        simp only
        rw [if_neg]
        rintro rfl
        rw [← hg] at e2; cases e2
    · dsimp only
      rw [h.dup, hl]
    · simp only [List.length_append, List.length_singleton]
      have := h.count
      omega
  | none =>
    rw [e] at hg
    rw [← hg] at hl
    refine ⟨fun n => ?_, ?_, ?_, ?_, ?_⟩
    · dsimp only
      rw [get_append, firstOf_append, h.get n]
    · dsimp only
      rw [h.dup, hl, List.append_nil]
    · dsimp only
      rw [List.map_append, List.nodup_append]
      refine ⟨h.nodup, by simp, ?_⟩
      intro y hy z hz
      simp only [List.map_cons, List.map_nil, List.mem_singleton] at hz
      rintro rfl
      rw [hz] at hy
      exact get_none _ _ e hy
    · simp only [List.length_append, List.length_singleton]
      have := h.count
      omega
    · intro p hp
      dsimp only at hp
      rcases List.mem_append.1 hp with hp | hp
      · exact h.name p hp
      · rw [List.mem_singleton] at hp; rw [hp]

theorem classes_hold (a : Artifact) : ∀ (xs : List Archived) (seen : List Declaration) (b : Building), Holds seen b →
    Holds (seen ++ xs.map (fun x => ⟨x.cls, a.path, a.fingerprint, x.entry, x.release⟩)) (xs.foldl (addClass a) b)
  | [], seen, b, h => by simpa using h
  | x :: xs, seen, b, h => by
    have := classes_hold a xs _ _ (addClass_holds a seen b x h)
    simpa using this

theorem addAll_holds : ∀ (as : List Artifact) (ps : List Product) (seen : List Declaration) (b r : Building), Holds seen b → addAll as ps b = some r →
    Holds (seen ++ declarations as ps) r
  | [], [], seen, b, r, h, e => by
    injection e with e; subst e
    simpa [declarations] using h
  | [], _ :: _, _, _, _, _, e => by cases e
  | _ :: _, [], _, _, _, _, e => by cases e
  | a :: as, p :: ps, seen, b, r, h, e => by
    simp only [addAll] at e
    cases e1 : addProduct a p b with
    | none => rw [e1] at e; cases e
    | some b' =>
      rw [e1] at e
      unfold addProduct at e1
      split at e1
      · cases e1
      · split at e1
        · cases e1
        · injection e1 with e1
          have := addAll_holds as ps _ b' r (e1 ▸ classes_hold a p.archive.classes seen b h) e
          rw [List.append_assoc] at this
          exact this

theorem addAll_some : ∀ (as : List Artifact) (ps : List Product) (b : Building), (∃ r, addAll as ps b = some r) ↔ Matches as ps
  | [], [], b => by simp [addAll, Matches]
  | [], p :: ps, b => by simp [addAll, Matches]
  | a :: as, [], b => by simp [addAll, Matches]
  | a :: as, p :: ps, b => by
    simp only [addAll, Matches, addProduct, List.length_cons, List.zip_cons_cons, List.mem_cons, forall_eq_or_imp]
    by_cases h1 : p.key.fingerprint = a.fingerprint
    · by_cases h2 : p.key.kind = a.kind
      · rw [if_neg (by simp [h1]), if_neg (by simp [h2])]
        simp only [Option.bind_some]
        rw [addAll_some as ps]
        unfold Matches
        constructor
        · rintro ⟨h3, h4⟩; exact ⟨by omega, ⟨h1, h2⟩, h4⟩
        · rintro ⟨h3, _, h4⟩; exact ⟨by omega, h4⟩
      · rw [if_neg (by simp [h1]), if_pos h2]
        simp [h2]
    · rw [if_pos h1]
      simp [h1]

theorem lin_dup : Lin dupLe := by
  refine lin_map (lin_pair lin_text (lin_pair lin_path lin_path)) Duplicate.key ?_
  rintro ⟨a1, a2, a3⟩ ⟨b1, b2, b3⟩ h
  simp only [Duplicate.key, Prod.mk.injEq] at h
  obtain ⟨rfl, rfl, rfl⟩ := h
  rfl

/-- **C87 (accepted products).** A catalog is made exactly when every artifact has one product, with its content and kind. -/
theorem c87_accepted (as : List Artifact) (ps : List Product) : (∃ r, catalog as ps = some r) ↔ Matches as ps := by
  rw [← addAll_some as ps ⟨[], []⟩]
  unfold catalog
  cases addAll as ps ⟨[], []⟩ <;> simp

theorem catalog_holds {as : List Artifact} {ps : List Product} {r : Building} (h : catalog as ps = some r) :
    ∃ b, Holds (declarations as ps) b ∧ r = ⟨b.classes, stableSort dupLe b.duplicates⟩ := by
  unfold catalog at h
  cases e : addAll as ps ⟨[], []⟩ with
  | none => rw [e] at h; cases h
  | some b =>
    rw [e] at h
    injection h with h
    have := addAll_holds as ps [] ⟨[], []⟩ b ⟨fun n => rfl, rfl, List.nodup_nil, rfl, (fun p hp => by cases hp)⟩ e
    exact ⟨b, this, h.symm⟩

/-- **C87 (precedence).** A name stands for its first class on the class path, and is in the catalog once. -/
theorem c87_precedence (as : List Artifact) (ps : List Product) (r : Building) (h : catalog as ps = some r) :
    (∀ n, get r.classes n = (declarations as ps).find? (fun d => decide (d.cls.name = n))) ∧ (r.classes.map (·.1)).Nodup ∧
    ∀ p ∈ r.classes, p.2.cls.name = p.1 := by
  obtain ⟨b, hb, rfl⟩ := catalog_holds h
  exact ⟨hb.get, hb.nodup, hb.name⟩

/-- **C87 (duplicates).** Every other class is reported with the place of the first one, in order, and nothing else is: the classes of the
catalog and the duplicates are as many as the classes of the artifacts. -/
theorem c87_duplicates (as : List Artifact) (ps : List Product) (r : Building) (h : catalog as ps = some r) :
    r.duplicates.Perm (laterOf [] (declarations as ps)) ∧ r.duplicates.Pairwise (fun a b => dupLe a b = true) ∧
    r.classes.length + r.duplicates.length = (declarations as ps).length := by
  obtain ⟨b, hb, rfl⟩ := catalog_holds h
  refine ⟨?_, stableSort_sorted (lin_order lin_dup) _, ?_⟩
  · rw [← hb.dup]; exact stableSort_perm _
  · have := hb.count
    show b.classes.length + (stableSort dupLe b.duplicates).length = _
    rw [(stableSort_perm b.duplicates).length_eq]
    exact this

theorem later_mem (x : Duplicate) : ∀ (ds seen : List Declaration), x ∈ laterOf seen ds ↔
    ∃ a d b w, ds = a ++ d :: b ∧ firstOf (seen ++ a) d.cls.name = some w ∧ x = ⟨d.cls.name, w.path, d.path⟩
  | [], seen => by simp [laterOf]
  | e :: ds, seen => by
    have ih := later_mem x ds (seen ++ [e])
    have hsplit : (∃ a d b w, e :: ds = a ++ d :: b ∧ firstOf (seen ++ a) d.cls.name = some w ∧ x = ⟨d.cls.name, w.path, d.path⟩) ↔
        (∃ w, firstOf seen e.cls.name = some w ∧ x = ⟨e.cls.name, w.path, e.path⟩) ∨
        ∃ a d b w, ds = a ++ d :: b ∧ firstOf (seen ++ [e] ++ a) d.cls.name = some w ∧ x = ⟨d.cls.name, w.path, d.path⟩ := by
      constructor
      · rintro ⟨a, d, b, w, h1, h2, h3⟩
        cases a with
        | nil =>
          injection h1 with h1 _
          subst h1
          rw [List.append_nil] at h2
          exact .inl ⟨w, h2, h3⟩
        | cons y a =>
          injection h1 with h0 h1
          subst h0
          exact .inr ⟨a, d, b, w, h1, by simpa using h2, h3⟩
      · rintro (⟨w, h2, h3⟩ | ⟨a, d, b, w, h1, h2, h3⟩)
        · exact ⟨[], e, ds, w, rfl, by simpa using h2, h3⟩
        · exact ⟨e :: a, d, b, w, by rw [h1]; rfl, by simpa using h2, h3⟩
    rw [hsplit, ← ih]
    simp only [laterOf]
    cases e1 : firstOf seen e.cls.name with
    | none => simp
    | some w => simp [eq_comm]

/-- **C87 (what a duplicate says).** A duplicate names a class that is in the catalog: the winner is the artifact of that class, and the class
is in the shadowed artifact too, later. -/
theorem c87_winner (as : List Artifact) (ps : List Product) (r : Building) (h : catalog as ps = some r) (x : Duplicate) :
    x ∈ r.duplicates ↔ ∃ a d b, declarations as ps = a ++ d :: b ∧ (∃ e ∈ a, e.cls.name = d.cls.name) ∧
      ∃ w, get r.classes d.cls.name = some w ∧ x = ⟨d.cls.name, w.path, d.path⟩ := by
  have hp := (c87_duplicates as ps r h).1
  have hg := (c87_precedence as ps r h).1
  rw [hp.mem_iff, later_mem]
  simp only [List.nil_append]
  constructor
  · rintro ⟨a, d, b, w, h1, h2, h3⟩
    refine ⟨a, d, b, h1, ?_, w, ?_, h3⟩
    · have := List.mem_of_find?_eq_some h2
      have hn := List.find?_some h2
      exact ⟨w, this, by simpa using hn⟩
    · rw [hg, h1, List.find?_append]
      unfold firstOf at h2
      rw [h2]; rfl
  · rintro ⟨a, d, b, h1, ⟨e, he, hen⟩, w, h2, h3⟩
    refine ⟨a, d, b, w, h1, ?_, h3⟩
    rw [hg, h1, List.find?_append] at h2
    unfold firstOf
    cases e2 : a.find? (fun x => decide (x.cls.name = d.cls.name)) with
    | none =>
      have := List.find?_eq_none.1 e2 e he
      simp [hen] at this
    | some w' =>
      rw [e2] at h2
      exact h2

theorem declared_path : ∀ (as : List Artifact) (ps : List Product) (d : Declaration), d ∈ declarations as ps → d.path ∈ as.map Artifact.path
  | [], _, d, h => by simp [declarations] at h
  | _ :: _, [], d, h => by simp [declarations] at h
  | a :: as, p :: ps, d, h => by
    simp only [declarations, List.mem_append, List.mem_map] at h
    rw [List.map_cons, List.mem_cons]
    rcases h with ⟨x, _, rfl⟩ | h
    · exact .inl rfl
    · exact .inr (declared_path as ps d h)

theorem declared_apart : ∀ (as : List Artifact) (ps : List Product), (as.map Artifact.path).Nodup →
    (∀ p ∈ ps, (p.archive.classes.map (fun x => x.cls.name)).Nodup) →
    (declarations as ps).Pairwise (fun d e => d.cls.name = e.cls.name → d.path ≠ e.path)
  | [], _, _, _ => by simp [declarations]
  | _ :: _, [], _, _ => by simp [declarations]
  | a :: as, p :: ps, h1, h2 => by
    rw [List.map_cons, List.nodup_cons] at h1
    simp only [declarations]
    rw [List.pairwise_append]
    refine ⟨?_, declared_apart as ps h1.2 (fun q hq => h2 q (List.mem_cons_of_mem _ hq)), ?_⟩
    · rw [List.pairwise_map]
      have := h2 p List.mem_cons_self
      rw [List.Nodup, List.pairwise_map] at this
      exact this.imp (fun hn he => absurd he hn)
    · intro d hd e he _ hp
      obtain ⟨x, _, rfl⟩ := List.mem_map.1 hd
      have := declared_path as ps e he
      rw [← hp] at this
      exact h1.1 this

/-- **C87 (never itself).** When the artifacts have different places and no artifact has a class twice, which the reader of archives makes sure of,
no artifact is said to shadow itself. -/
theorem c87_apart (as : List Artifact) (ps : List Product) (r : Building) (h : catalog as ps = some r) (h1 : (as.map Artifact.path).Nodup)
    (h2 : ∀ p ∈ ps, (p.archive.classes.map (fun x => x.cls.name)).Nodup) (x : Duplicate) (hx : x ∈ r.duplicates) : x.winner ≠ x.shadowed := by
  rw [(c87_duplicates as ps r h).1.mem_iff, later_mem] at hx
  obtain ⟨a, d, b, w, e, hf, rfl⟩ := hx
  rw [List.nil_append] at hf
  have hp := declared_apart as ps h1 h2
  rw [e, List.pairwise_append] at hp
  exact hp.2.2 w (List.mem_of_find?_eq_some hf) d List.mem_cons_self (by simpa using List.find?_some hf)

/-- **C87 (longer class paths).** Artifacts that are added at the end of the class path change no class that was found before. -/
theorem c87_longer (as bs : List Artifact) (ps qs : List Product) (r s : Building) (h1 : catalog as ps = some r)
    (h2 : catalog (as ++ bs) (ps ++ qs) = some s) (n : Text) (d : Declaration) (h : get r.classes n = some d) : get s.classes n = some d := by
  have hl : as.length = ps.length := ((c87_accepted as ps).1 ⟨r, h1⟩).1
  have hd : ∀ (as : List Artifact) (ps : List Product), as.length = ps.length → declarations (as ++ bs) (ps ++ qs) = declarations as ps ++ declarations bs qs := by
    intro as
    induction as with
    | nil => intro ps hl; cases ps with
      | nil => rfl
      | cons => simp at hl
    | cons a as ih => intro ps hl; cases ps with
      | nil => simp at hl
      | cons p ps =>
        simp only [List.cons_append, declarations, List.append_assoc]
        rw [ih ps (by simpa using hl)]
  rw [(c87_precedence _ _ _ h1).1] at h
  rw [(c87_precedence _ _ _ h2).1, hd as ps hl, List.find?_append, h]
  rfl

/-! ### Identities -/

theorem le_length (n v : Nat) : (leBytes n v).length = n := by
  induction n generalizing v with
  | zero => rfl
  | succ n ih => simp only [leBytes, List.length_cons]; rw [ih]

theorem le_inj : ∀ (n v w : Nat), v < 256 ^ n → w < 256 ^ n → leBytes n v = leBytes n w → v = w
  | 0, v, w, hv, hw, _ => by simp at hv hw; omega
  | n + 1, v, w, hv, hw, h => by
    simp only [leBytes, List.cons.injEq] at h
    rw [Nat.pow_succ] at hv hw
    have h1 := le_inj n (v / 256) (w / 256) (by omega) (by omega) h.2
    omega

theorem field_inj (s t : Text) (x y : List Nat) (hs : s.length < 256 ^ 8) (ht : t.length < 256 ^ 8) (h : field s ++ x = field t ++ y) : s = t ∧ x = y := by
  unfold field at h
  rw [List.append_assoc, List.append_assoc] at h
  obtain ⟨h1, h2⟩ := List.append_inj h (by rw [le_length, le_length])
  have := le_inj 8 _ _ hs ht h1
  exact List.append_inj h2 this

theorem limits_inj : ∀ (a b : List Nat), a.length = b.length → (∀ x ∈ a, x < 256 ^ 8) → (∀ x ∈ b, x < 256 ^ 8) → limitBytes a = limitBytes b → a = b
  | [], [], _, _, _, _ => rfl
  | [], _ :: _, h, _, _, _ => by cases h
  | _ :: _, [], h, _, _, _ => by cases h
  | x :: a, y :: b, hl, ha, hb, h => by
    unfold limitBytes at h
    rw [List.flatMap_cons, List.flatMap_cons] at h
    obtain ⟨h1, h2⟩ := List.append_inj h (by rw [le_length, le_length])
    rw [le_inj 8 x y (ha x List.mem_cons_self) (hb y List.mem_cons_self) h1,
      limits_inj a b (by simpa using hl) (fun z hz => ha z (List.mem_cons_of_mem _ hz)) (fun z hz => hb z (List.mem_cons_of_mem _ hz)) h2]

/-- **C87 (identities).** When the hash has no collisions, the identity of the stored metadata tells the versions of the program, the content and
the kind of the artifact, the version of Java and the limits. -/
theorem c87_identity (c c' : Build) (hc : c.hash = c'.hash) (inj : ∀ x y, c.hash x = c.hash y → x = y) (hlen : ∀ x, (c.hash x).length < 256 ^ 8)
    (a a' : Artifact) (jdk jdk' : Nat) (l l' : List Nat)
    (hs : c.schema < 256 ^ 4) (hs' : c'.schema < 256 ^ 4) (hp : c.package.length < 256 ^ 8) (hp' : c'.package.length < 256 ^ 8)
    (hv : c.version.length < 256 ^ 8) (hv' : c'.version.length < 256 ^ 8) (hf : a.fingerprint.length < 256 ^ 8) (hf' : a'.fingerprint.length < 256 ^ 8)
    (hj : jdk < 256 ^ 2) (hj' : jdk' < 256 ^ 2) (hl : l.length = l'.length) (hx : ∀ x ∈ l, x < 256 ^ 8) (hx' : ∀ x ∈ l', x < 256 ^ 8)
    (h : (newKey c a jdk l).cacheId = (newKey c' a' jdk' l').cacheId) :
    c.schema = c'.schema ∧ c.package = c'.package ∧ c.version = c'.version ∧ a.fingerprint = a'.fingerprint ∧ a.kind = a'.kind ∧ jdk = jdk' ∧ l = l' := by
  unfold newKey at h
  dsimp only at h
  rw [← hc] at h
  have h := inj _ _ h
  unfold identityBytes at h
  simp only [List.append_assoc] at h
  obtain ⟨h1, h⟩ := List.append_inj h (by rw [le_length, le_length])
  obtain ⟨h2, h⟩ := field_inj _ _ _ _ hp hp' h
  obtain ⟨h3, h⟩ := field_inj _ _ _ _ hv hv' h
  obtain ⟨h4, h⟩ := field_inj _ _ _ _ hf hf' h
  obtain ⟨h5, h⟩ := List.append_inj h rfl
  obtain ⟨h6, h⟩ := List.append_inj h (by rw [le_length, le_length])
  have h7 := (field_inj _ _ [] [] (hlen (limitBytes l)) (hlen (limitBytes l')) (by rw [List.append_nil, List.append_nil]; exact h)).1
  refine ⟨le_inj 4 _ _ hs hs' h1, h2, h3, h4, ?_, le_inj 2 _ _ hj hj' h6, limits_inj l l' hl hx hx' (inj _ _ h7)⟩
  injection h5 with h5 _
  cases e : a.kind <;> cases e' : a'.kind <;> rw [e, e'] at h5 <;> first | rfl | (exact absurd h5 (by decide))

theorem tag_inj (a b : Kind) (h : a.tag = b.tag) : a = b := by
  cases a <;> cases b <;> first | rfl | (exact absurd h (by decide))

/-- **C87 (stored metadata).** Stored metadata are used exactly when the schema is the same and all of the identity is the one asked for, and what
is read is what was stored. -/
theorem c87_stored (s s' : Nat) (p q : Product) (k : Key) : decode s' k (encode s p) = some q ↔
    s = s' ∧ p.key = k ∧ p.archive.fingerprint = k.fingerprint ∧ q = p := by
  obtain ⟨⟨i, f, ki, j, li⟩, ar⟩ := p
  obtain ⟨i', f', ki', j', li'⟩ := k
  unfold decode encode
  dsimp only
  by_cases hs : s = s'
  · rw [if_neg (by simp [hs])]
    by_cases hk : i = i' ∧ f = f' ∧ ki = ki' ∧ j = j' ∧ li = li' ∧ ar.fingerprint = f'
    · obtain ⟨rfl, rfl, rfl, rfl, rfl, h6⟩ := hk
      rw [if_neg (by simp [h6])]
      simp [hs, h6, eq_comm]
    · rw [if_pos]
      · simp only [reduceCtorEq, Key.mk.injEq, false_iff, not_and]
        rintro _ ⟨h1, h2, h3, h4, h5⟩ h6
        exact absurd ⟨h1, h2, h3, h4, h5, h6⟩ hk
      · apply Classical.byContradiction
        intro hn
        simp only [not_or, ne_eq, Classical.not_not] at hn
        exact hk ⟨hn.1, hn.2.1, tag_inj _ _ hn.2.2.1, hn.2.2.2.1, hn.2.2.2.2.1, hn.2.2.2.2.2⟩
  · rw [if_pos hs]
    simp [hs]

/-- **C87 (metadata from files).** Metadata are made from a file only for the key of its artifact, and only when the bytes are those the artifact
stands for; what is made then belongs to the artifact and is read back after it was stored. -/
theorem c87_build (c : Build) (a : Artifact) (k : Key) (l bytes : List Nat) (parse : List Nat → Kind → Nat → Option Archive) (p : Product) (s : Nat)
    (h : build c a k l bytes parse = some p) : k = newKey c a k.jdk l ∧ c.hash bytes = a.fingerprint ∧ parse bytes a.kind k.jdk = some p.archive ∧
      p.key = k ∧ p.key.fingerprint = a.fingerprint ∧ p.key.kind = a.kind ∧ decode s k (encode s p) = some p := by
  unfold build at h
  split at h
  · cases h
  · rename_i h1
    split at h
    · cases h
    · rename_i h2
      split at h
      · cases h
      · rename_i r hr
        split at h
        · cases h
        · rename_i h3
          injection h with h
          subst h
          have h1 : k = newKey c a k.jdk l := Classical.not_not.1 h1
          have h3 : r.fingerprint = a.fingerprint := Classical.not_not.1 h3
          have hf : k.fingerprint = a.fingerprint := by rw [h1]; rfl
          have hk : k.kind = a.kind := by rw [h1]; rfl
          refine ⟨h1, Classical.not_not.1 h2, hr, rfl, hf, hk, ?_⟩
          rw [c87_stored]
          exact ⟨rfl, rfl, by rw [h3, hf], rfl⟩

/-! ### Cases -/

def jar (n : Nat) : Artifact := ⟨[none, some [n]], [n], .jar⟩
def prod (n : Nat) (cs : List Class) : Product := ⟨⟨[0], [n], .jar, 17, [1]⟩, ⟨[n], cs.map (fun c => ⟨c, c.name, none⟩)⟩⟩

theorem c87_example : catalog [jar 2, jar 1, jar 3] [prod 2 [⟨[65], 1⟩, ⟨[66], 2⟩], prod 1 [⟨[66], 3⟩, ⟨[67], 4⟩], prod 3 [⟨[65], 5⟩, ⟨[66], 6⟩]] =
      some ⟨[([65], ⟨⟨[65], 1⟩, [none, some [2]], [2], [65], none⟩), ([66], ⟨⟨[66], 2⟩, [none, some [2]], [2], [66], none⟩),
        ([67], ⟨⟨[67], 4⟩, [none, some [1]], [1], [67], none⟩)],
        [⟨[65], [none, some [2]], [none, some [3]]⟩, ⟨[66], [none, some [2]], [none, some [1]]⟩, ⟨[66], [none, some [2]], [none, some [3]]⟩]⟩ ∧
    catalog [jar 2] [prod 1 []] = none ∧ catalog [jar 2] [] = none ∧
    decode 1 ⟨[0], [2], .jar, 17, [1]⟩ (encode 1 (prod 2 [])) = some (prod 2 []) ∧ decode 1 ⟨[0], [2], .jar, 21, [1]⟩ (encode 1 (prod 2 [])) = none := by
  decide +kernel

/-- **C87 fails for the order of artifacts**: which class a name stands for depends on it. -/
theorem c87_order_fails : (catalog [jar 1, jar 2] [prod 1 [⟨[65], 1⟩], prod 2 [⟨[65], 2⟩]]).map (fun b => get b.classes [65]) ≠
    (catalog [jar 2, jar 1] [prod 2 [⟨[65], 2⟩], prod 1 [⟨[65], 1⟩]]).map (fun b => get b.classes [65]) := by
  decide +kernel

end Verif.JavaCatalog
