import Mathlib.Data.List.Perm.Basic
import Verif.Lemmas.Archive
import Verif.Props.ClassFile

/-! Property C59: the classes of an archive are those that its entries provide for the release, whatever the order of its entries. -/
namespace Verif.Archive

open ClassFile (Bytes Str Seq)

/-- `str::from_utf8`. -/
def Decodes (text : Bytes → Option Str) : Prop := ∀ b t, text b = some t ↔ b = utf8 t

theorem utf8_injective {s t : Str} (h : utf8 s = utf8 t) : s = t := by
  have h1 : s.utf8Encode = t.utf8Encode := by unfold List.utf8Encode; exact congrArg _ h
  have h2 : String.ofList s = String.ofList t := by
    apply String.toByteArray_inj.1
    rw [String.toByteArray_ofList, String.toByteArray_ofList, h1]
  have h3 := congrArg String.toList h2
  rwa [String.toList_ofList, String.toList_ofList] at h3

open Classical in
/-- There is a decoder. -/
theorem decodes_exists : ∃ text, Decodes text := by
  refine ⟨fun b => if h : ∃ t, b = utf8 t then some h.choose else none, ?_⟩
  intro b t
  constructor
  · intro h
    simp only at h
    split at h
    · next he => cases h; exact he.choose_spec
    · cases h
  · intro h
    have he : ∃ t, b = utf8 t := ⟨t, h⟩
    simp only [he, dite_true]
    exact congrArg some (utf8_injective (he.choose_spec.symm.trans h))

/-- The ZIP archive in the bytes of a file. -/
def Body (kind : Kind) (b z : Bytes) : Prop :=
  match kind with
  | .jar => b = z
  | .jmod => b = [0x4a, 0x4d, 0x01, 0x00] ++ z

theorem zipBytes_iff {kind : Kind} {b z : Bytes} : zipBytes kind b = some z ↔ Body kind b z := by
  unfold zipBytes Body
  constructor
  · intro h
    split at h
    · cases h; rfl
    · cases h; rfl
    · cases h
  · intro h
    cases kind with
    | jar => simp only at h; rw [h]
    | jmod => simp only at h; rw [h]; rfl

/-- Entries are counted exactly if the bytes are an archive with a directory of so many entries of different names, up to its end. -/
theorem c59_directory (b : Bytes) (max n : Nat) : directory b max = some n ↔ n ≤ max ∧ ∃ names : List Bytes, names.length = n ∧ IsZip names b := directory_iff

theorem select_result {kind : Kind} {multi : Bool} {M : Prop} (hM : multi = true ↔ M) {jdk : Nat} {L : Limits} {es : List (Str × Bytes)} (hn : (es.map (·.1)).Nodup) {cs : List Cls} :
    (∃ m, select kind multi jdk (stableSort (fun a b => nameLe a.1 b.1) es) [] = some m ∧ m.length ≤ L.classes ∧ classes L m = some cs) ↔ IsResult L kind M jdk es cs := by
  have hmem : ∀ x, x ∈ stableSort (fun a b : Str × Bytes => nameLe a.1 b.1) es ↔ x ∈ es := fun x => mem_stableSort
  rcases select_holds hM (jdk := jdk) (l := stableSort (fun a b : Str × Bytes => nameLe a.1 b.1) es) (done := []) (m := []) (sorted_strict hn) (holds_nil kind M jdk) with
    ⟨h1, e, he, h2⟩ | ⟨m, h1, h2, h3⟩
  · rw [h1]
    constructor
    · rintro ⟨m, h, _⟩; cases h
    · intro h; exact absurd h2 (h.1 e ((hmem e).1 he))
  · rw [List.nil_append] at h3
    have h3' : Holds kind M jdk es m := by
      obtain ⟨a, b, c⟩ := h3
      exact ⟨a, fun k r e c => (b k r e c).trans (chosen_congr Iff.rfl hmem), fun e he => c e ((hmem e).2 he)⟩
    rw [← result_iff hn (fun e he => h2 e ((hmem e).2 he)) h3', h1]
    constructor
    · rintro ⟨m', h, h4⟩
      cases h
      exact h4
    · intro h; exact ⟨m, rfl, h⟩

/-- The classes are read exactly if the file is within its limit and holds an archive, all of whose entries the reader shows, that are
within the limits and have different and safe names; and they are the classes of the entries that are chosen for the release. -/
theorem c59_exact {text : Bytes → Option Str} (htext : Decodes text) (reader : Bytes → Option (List (Option Entry))) (space : Char → Bool) (kind : Kind) (jdk : Nat)
    (L : Limits) (b : Bytes) (cs : List Cls) :
    parse reader text space kind jdk L b = some cs ↔ b.length ≤ L.archiveBytes ∧ ∃ z names l es, Body kind b z ∧ IsZip names z ∧ names.length ≤ L.entries ∧
      reader z = some l ∧ l.length = names.length ∧ Contents kind L l es ∧ IsResult L kind (MultiRelease space kind es) jdk es cs := by
  unfold parse
  constructor
  · intro h
    split at h
    · cases h
    · next hlen =>
      split at h
      · cases h
      · next z hz =>
        split at h
        · next n l hd hr =>
          split at h
          · cases h
          · next hl =>
            split at h
            · cases h
            · next es he =>
              simp only at h
              obtain ⟨h1, names, h2, h3⟩ := directory_iff.1 hd
              rw [contents_iff] at he
              have hn := contents_nodup he
              refine ⟨by omega, z, names, l, es, zipBytes_iff.1 hz, h3, by omega, hr, by omega, he, ?_⟩
              rw [← select_result (isMulti_iff htext space kind hn) hn]
              split at h
              · cases h
              · next m hm =>
                split at h
                · cases h
                · exact ⟨m, hm, by omega, h⟩
        · cases h
  · rintro ⟨h1, z, names, l, es, h2, h3, h4, h5, h6, h7, h8⟩
    have hn := contents_nodup h7
    rw [← select_result (isMulti_iff htext space kind hn) hn] at h8
    obtain ⟨m, k1, k2, k3⟩ := h8
    rw [if_neg (by omega), zipBytes_iff.2 h2]
    simp only
    rw [directory_iff.2 ⟨h4, names, rfl, h3⟩, h5]
    simp only
    rw [if_neg (by omega), contents_iff.2 h7]
    simp only
    rw [k1]
    simp only
    rw [if_neg (by omega), k3]

/-- The classes are determined by the entries. -/
theorem c59_unique {kind : Kind} {M : Prop} {jdk : Nat} {L : Limits} {es : List (Str × Bytes)} (hn : (es.map (·.1)).Nodup) {cs cs' : List Cls}
    (h : IsResult L kind M jdk es cs) (h' : IsResult L kind M jdk es cs') : cs = cs' := by
  have hM : (@decide M (Classical.propDecidable M)) = true ↔ M := by simp
  rw [← select_result hM hn] at h h'
  obtain ⟨m, h1, _, h2⟩ := h
  obtain ⟨m', h1', _, h2'⟩ := h'
  rw [h1] at h1'
  cases h1'
  rw [h2] at h2'
  cases h2'
  rfl

theorem result_congr {kind : Kind} {M M' : Prop} (hM : M ↔ M') {jdk : Nat} {L : Limits} {es es' : List (Str × Bytes)} (h : ∀ e, e ∈ es ↔ e ∈ es') {cs : List Cls}
    (hr : IsResult L kind M jdk es cs) : IsResult L kind M' jdk es' cs := by
  obtain ⟨a, b, c, d, e⟩ := hr
  have hMM : M = M' := propext hM
  subst hMM
  refine ⟨fun x hx => a x ((h x).2 hx), b, c, ?_, fun x hx => e x ((h x).2 hx)⟩
  intro x hx
  obtain ⟨content, h1, h2⟩ := d x hx
  exact ⟨content, (chosen_congr Iff.rfl h).1 h1, h2⟩

theorem multi_congr {space : Char → Bool} {kind : Kind} {es es' : List (Str × Bytes)} (h : ∀ e, e ∈ es ↔ e ∈ es') (hm : MultiRelease space kind es) :
    MultiRelease space kind es' := by
  obtain ⟨a, e, b, c, d, f⟩ := hm
  exact ⟨a, e, (h e).1 b, c, fun x hx => d x ((h x).2 hx), f⟩

theorem contents_perm {kind : Kind} {L : Limits} {l l' : List (Option Entry)} (hp : l.Perm l') {es : List (Str × Bytes)} (h : Contents kind L l es) :
    ∃ es', es.Perm es' ∧ Contents kind L l' es' := by
  obtain ⟨entries, h1, h2, h3, h4, h5⟩ := h
  have hall : ∀ o ∈ l', ∃ e, o = some e := by
    intro o ho
    have := (hp.mem_iff).2 ho
    rw [h1] at this
    obtain ⟨e, _, rfl⟩ := List.mem_map.1 this
    exact ⟨e, rfl⟩
  have hl' : l' = (l'.filterMap id).map some := by
    clear hp h1
    induction l' with
    | nil => rfl
    | cons o l' ih =>
      obtain ⟨e, rfl⟩ := hall o (by simp)
      rw [List.filterMap_cons]
      simp only [id, List.map_cons]
      exact congrArg (some e :: ·) (ih (fun o ho => hall o (by simp [ho])))
  have hpe : (l'.filterMap id).Perm entries := by
    have := (hp.symm.filterMap id)
    rw [h1] at this
    have he : (entries.map some).filterMap id = entries := by simp
    rwa [he] at this
  have hfil := hpe.filter (fun e => @decide (Matters kind e.name) (Classical.propDecidable _))
  obtain ⟨es', h6, h7⟩ := List.perm_comp_forall₂ hfil h5
  refine ⟨es', h7.symm, l'.filterMap id, hl', fun e he => h2 e (hpe.mem_iff.1 he), ((hpe.map _).nodup_iff).2 h3, ?_, h6⟩
  have := (hfil.map (fun e : Entry => e.size)).sum_nat
  omega

/-- The order in which the reader shows the entries is of no matter. -/
theorem c59_order {text : Bytes → Option Str} (htext : Decodes text) {reader reader' : Bytes → Option (List (Option Entry))}
    (h : ∀ z, (reader z = none ∧ reader' z = none) ∨ ∃ l l', reader z = some l ∧ reader' z = some l' ∧ l.Perm l') (space : Char → Bool) (kind : Kind) (jdk : Nat) (L : Limits) (b : Bytes) :
    parse reader text space kind jdk L b = parse reader' text space kind jdk L b := by
  have main : ∀ {reader reader' : Bytes → Option (List (Option Entry))},
      (∀ z, (reader z = none ∧ reader' z = none) ∨ ∃ l l', reader z = some l ∧ reader' z = some l' ∧ l.Perm l') → ∀ cs,
      parse reader text space kind jdk L b = some cs → parse reader' text space kind jdk L b = some cs := by
    intro reader reader' h cs hc
    rw [c59_exact htext] at hc ⊢
    obtain ⟨h1, z, names, l, es, h2, h3, h4, h5, h6, h7, h8⟩ := hc
    rcases h z with ⟨h9, _⟩ | ⟨l1, l2, h9, h10, h11⟩
    · rw [h5] at h9; cases h9
    · rw [h5] at h9
      cases h9
      obtain ⟨es', h12, h13⟩ := contents_perm h11 h7
      refine ⟨h1, z, names, l2, es', h2, h3, h4, h10, by rw [← h11.length_eq]; exact h6, h13, ?_⟩
      exact result_congr ⟨multi_congr fun e => h12.mem_iff, multi_congr fun e => h12.symm.mem_iff⟩ (fun e => h12.mem_iff) h8
  cases hc : parse reader text space kind jdk L b with
  | some cs => exact (main h cs hc).symm
  | none =>
    cases hc' : parse reader' text space kind jdk L b with
    | none => rfl
    | some cs =>
      have := main (reader := reader') (reader' := reader) (by
        intro z
        rcases h z with ⟨a, b⟩ | ⟨l, l', a, b, c⟩
        · exact .inl ⟨b, a⟩
        · exact .inr ⟨l', l, b, a, c.symm⟩) cs hc'
      rw [hc] at this
      cases this

/-- Every class is that of an entry of the archive with its name; an entry for a release is only used in an archive for several releases,
if the release is at least 9 and not after that of the JDK, and there is none of a later release that is not after that of the JDK. -/
theorem c59_release {text : Bytes → Option Str} (htext : Decodes text) {reader : Bytes → Option (List (Option Entry))} {space : Char → Bool} {jdk : Nat}
    {L : Limits} {b : Bytes} {cs : List Cls} (h : parse reader text space .jar jdk L b = some cs) {c : Cls} (hc : c ∈ cs) :
    ∃ l, reader b = some l ∧ (∃ e, some e ∈ l ∧ e.name = c.entry) ∧
      match c.release with
      | none => c.entry = c.cls.name ++ ".class".toList
      | some r => 9 ≤ r ∧ r ≤ jdk ∧ Versioned c.entry (c.cls.name ++ ".class".toList) r ∧
          ∀ e r', some e ∈ l → Versioned e.name (c.cls.name ++ ".class".toList) r' → r' ≤ jdk → r' ≤ r := by
  rw [c59_exact htext] at h
  obtain ⟨_, z, names, l, es, rfl, _, _, h5, _, h7, h8⟩ := h
  obtain ⟨content, ⟨h9, h10, h11⟩, _⟩ := h8.2.2.2.1 c hc
  obtain ⟨entries, k1, _, _, _, k5⟩ := h7
  refine ⟨l, h5, ?_, ?_⟩
  · obtain ⟨e, he, hr⟩ := forall2_right k5 h9
    refine ⟨e, ?_, hr.1.symm⟩
    rw [k1]
    exact List.mem_map.2 ⟨e, List.mem_of_mem_filter he, rfl⟩
  · obtain ⟨_, h10 | ⟨hm, r, hr, hj, hv⟩⟩ := h10
    · rw [h10.2.1]; exact h10.1
    · rw [hr] at h11 ⊢
      obtain ⟨s, hs, hrel, h9', hne⟩ := hv
      refine ⟨h9', hj, ⟨s, hs, hrel, h9', hne⟩, ?_⟩
      intro e r' he hv' hj'
      rw [k1] at he
      obtain ⟨e', he', heq⟩ := List.mem_map.1 he
      cases heq
      obtain ⟨s', hs', hrest⟩ := hv'
      have hmat : Matters .jar e.name := .inl ⟨"META-INF/versions/".toList ++ s' ++ '/' :: c.cls.name, by rw [hs']; simp⟩
      have hmem : e ∈ entries.filter fun e => @decide (Matters .jar e.name) (Classical.propDecidable _) :=
        List.mem_filter.2 ⟨he', by simpa using hmat⟩
      obtain ⟨p, hp, hr'⟩ := forall2_left k5 hmem
      have := (h11 p hp (some r') ⟨⟨c.cls.name, rfl⟩, .inr ⟨hm, r', rfl, hj', s', by rw [hr'.1]; exact hs', hrest⟩⟩).1
      simpa using this

/-- No entry leaves the directory or has a name twice, whether it is read or not. -/
theorem c59_safe {text : Bytes → Option Str} (htext : Decodes text) {reader : Bytes → Option (List (Option Entry))} {space : Char → Bool} {kind : Kind} {jdk : Nat}
    {L : Limits} {b : Bytes} {cs : List Cls} (h : parse reader text space kind jdk L b = some cs) :
    ∃ (z : Bytes) (entries : List Entry), Body kind b z ∧ reader z = some (entries.map some) ∧ (∀ e ∈ entries, Safe e.name) ∧ (entries.map (·.name)).Nodup := by
  rw [c59_exact htext] at h
  obtain ⟨_, z, names, l, es, h2, _, _, h5, _, ⟨entries, k1, k2, k3, _⟩, _⟩ := h
  subst k1
  exact ⟨z, entries, h2, h5, k2, k3⟩

/-- An entry below `META-INF/versions/` that is not in the directory of a release makes a JAR invalid, for several releases or not. -/
theorem c59_malformed {text : Bytes → Option Str} (htext : Decodes text) {reader : Bytes → Option (List (Option Entry))} {space : Char → Bool} {jdk : Nat}
    {L : Limits} {b : Bytes} {l : List (Option Entry)} (hl : reader b = some l) {e : Entry} (he : some e ∈ l) {s : Str}
    (hs : e.name = "META-INF/versions/".toList ++ s ++ ".class".toList) (hv : ∀ name r, ¬ Versioned e.name name r) : parse reader text space .jar jdk L b = none := by
  cases hc : parse reader text space .jar jdk L b with
  | none => rfl
  | some cs =>
    rw [c59_exact htext] at hc
    obtain ⟨_, z, names, l', es, rfl, _, _, h5, _, ⟨entries, k1, _, _, _, k5⟩, h8⟩ := hc
    rw [hl] at h5
    cases h5
    rw [k1] at he
    obtain ⟨e', he', heq⟩ := List.mem_map.1 he
    cases heq
    have hmem : e ∈ entries.filter fun e => @decide (Matters .jar e.name) (Classical.propDecidable _) :=
      List.mem_filter.2 ⟨he', by simpa using (show Matters .jar e.name from .inl ⟨_, hs⟩)⟩
    obtain ⟨p, hp, hr⟩ := forall2_left k5 hmem
    refine absurd ⟨rfl, ⟨s ++ ".class".toList, by rw [hr.1, hs, List.append_assoc]⟩, ?_⟩ (h8.1 p hp)
    rintro ⟨name, r, hv'⟩
    rw [hr.1] at hv'
    exact hv name r hv'

/-- One class that cannot be read makes the whole archive unreadable. -/
theorem c59_one_bad_class {kind : Kind} {M : Prop} {jdk : Nat} {L : Limits} {es : List (Str × Bytes)} (hn : (es.map (·.1)).Nodup) {name : Str} {release : Option Nat} {entry : Str} {content : Bytes}
    (h : Chosen kind M jdk es name release entry content) (hbad : ClassFile.parseClass L.cls content = none) (cs : List Cls) : ¬ IsResult L kind M jdk es cs := by
  intro hr
  obtain ⟨c, hc, hk⟩ := hr.2.2.2.2 _ h.1 _ _ h.2.1
  obtain ⟨content', h1, h2⟩ := hr.2.2.2.1 c hc
  rw [hk] at h1
  obtain ⟨_, _, rfl⟩ := chosen_unique hn h h1
  rw [hbad] at h2
  cases h2

/-! ### Examples -/

def zeros (n : Nat) : Bytes := List.replicate n 0

def ascii (s : String) : Bytes := s.toList.map fun c => UInt8.ofNat c.toNat

def sampleHeader (name : String) : Bytes := [0x50, 0x4b, 0x01, 0x02] ++ zeros 24 ++ le2 name.length ++ le2 0 ++ le2 0 ++ zeros 12 ++ ascii name

/-- An archive with a directory only; the reader of the examples knows the contents. -/
def sampleZip (offset : Nat) (names : List String) (comment : Bytes) : Bytes :=
  names.flatMap sampleHeader ++ ([0x50, 0x4b, 0x05, 0x06] ++ le2 0 ++ le2 0 ++ le2 names.length ++ le2 names.length ++ zeros 4 ++ le4 offset ++ le2 comment.length ++ comment)

/-- The class `A` of some flags. -/
def sampleA (flags : Nat) : Bytes := ClassFile.sampleClass flags (ClassFile.be2 0) (ClassFile.be2 0) (ClassFile.be2 0)

def sampleEntry (name : String) (content : Bytes) : Option Entry := some { name := name.toList, size := content.length, content := some content }

def sampleText (b : Bytes) : Option Str := some (b.map fun x => Char.ofNat x.toNat)

def sampleLimits : Limits := { archiveBytes := 268435456, entries := 100000, entryBytes := 33554432, totalBytes := 536870912, classes := 100000, cls := ClassFile.Limits.default }

/-- Entry, release and flags of the classes of a JAR of these entries. -/
def sampleParse (jdk : Nat) (l : List (String × Bytes)) (b : Bytes) : Option (List (String × Option Nat × Nat)) :=
  (parse (fun _ => some (l.map fun e => sampleEntry e.1 e.2)) sampleText (fun c => c == ' ') .jar jdk sampleLimits b).map fun cs => cs.map fun c => (String.ofList c.entry, c.release, c.cls.flags)

def manifest : String × Bytes := ("META-INF/MANIFEST.MF", ascii "Manifest-Version: 1.0\r\nMulti-Release: true\r\n")

def multiJar : List (String × Bytes) :=
  [("META-INF/versions/11/A.class", sampleA 11), ("A.class", sampleA 1), manifest, ("META-INF/versions/9/A.class", sampleA 9), ("x/readme.txt", [])]

def sampleJar (l : List (String × Bytes)) : Bytes := sampleZip 0 (l.map (·.1)) []

set_option maxRecDepth 100000 in
/-- The latest release that the JDK has. -/
example : sampleParse 8 multiJar (sampleJar multiJar) = some [("A.class", none, 1)] ∧
    sampleParse 10 multiJar (sampleJar multiJar) = some [("META-INF/versions/9/A.class", some 9, 9)] ∧
    sampleParse 17 multiJar (sampleJar multiJar) = some [("META-INF/versions/11/A.class", some 11, 11)] := by decide +kernel

set_option maxRecDepth 100000 in
/-- Without the manifest it is an archive for one release. -/
example : sampleParse 17 (multiJar.filter (· != manifest)) (sampleJar (multiJar.filter (· != manifest))) = some [("A.class", none, 1)] := by decide +kernel

set_option maxRecDepth 100000 in
/-- A name twice, a name that leaves the directory, a class in the wrong place. -/
example : sampleParse 8 [("A.class", sampleA 1), ("A.class", sampleA 1)] (sampleJar [("A.class", []), ("A.class", [])]) = none ∧
    sampleParse 8 [("A.class", sampleA 1), ("x/../y", [])] (sampleJar [("A.class", []), ("x/../y", [])]) = none ∧
    sampleParse 8 [("B.class", sampleA 1)] (sampleJar [("B.class", [])]) = none ∧
    sampleParse 8 [("A.class", sampleA 1), ("x..y/z", [])] (sampleJar [("A.class", []), ("x..y/z", [])]) = some [("A.class", none, 1)] := by decide +kernel

/-! ### Not as it should be -/

set_option maxRecDepth 100000 in
/-- The directory of a release is named by its number: `009` and `+9` are not such directories, but their classes are used, even instead of
those of the directory `9`. -/
theorem c59_release_names_fails :
    sampleParse 17 [("A.class", sampleA 1), manifest, ("META-INF/versions/+9/A.class", sampleA 2), ("META-INF/versions/9/A.class", sampleA 3)]
      (sampleJar [("A.class", []), manifest, ("META-INF/versions/+9/A.class", []), ("META-INF/versions/9/A.class", [])]) = some [("META-INF/versions/+9/A.class", some 9, 2)] ∧
    sampleParse 17 [("A.class", sampleA 1), manifest, ("META-INF/versions/009/A.class", sampleA 2), ("META-INF/versions/9/A.class", sampleA 3)]
      (sampleJar [("A.class", []), manifest, ("META-INF/versions/009/A.class", []), ("META-INF/versions/9/A.class", [])]) = some [("META-INF/versions/009/A.class", some 9, 2)] := by
  decide +kernel

set_option maxRecDepth 100000 in
/-- An attribute of an entry in the manifest (after an empty line) is not one of the archive, and one without a blank after the colon is none,
but both make it an archive for several releases. -/
theorem c59_manifest_sections_fails :
    sampleParse 17 [("A.class", sampleA 1), ("META-INF/MANIFEST.MF", ascii "Manifest-Version: 1.0\n\nName: x\nMulti-Release: true\n"), ("META-INF/versions/9/A.class", sampleA 3)]
      (sampleJar [("A.class", []), manifest, ("META-INF/versions/9/A.class", [])]) = some [("META-INF/versions/9/A.class", some 9, 3)] ∧
    sampleParse 17 [("A.class", sampleA 1), ("META-INF/MANIFEST.MF", ascii "Manifest-Version: 1.0\nMulti-Release:true\n"), ("META-INF/versions/9/A.class", sampleA 3)]
      (sampleJar [("A.class", []), manifest, ("META-INF/versions/9/A.class", [])]) = some [("META-INF/versions/9/A.class", some 9, 3)] := by
  decide +kernel

set_option maxRecDepth 100000 in
/-- A class directly below `META-INF/versions`, which the JVM ignores, makes a JAR for one release unreadable. -/
theorem c59_ignored_entries_fails :
    sampleParse 17 [("A.class", sampleA 1), ("META-INF/versions/A.class", sampleA 2)] (sampleJar [("A.class", []), ("META-INF/versions/A.class", [])]) = none ∧
    sampleParse 17 [("A.class", sampleA 1), ("META-INF/versions/8/A.class", sampleA 2)] (sampleJar [("A.class", []), ("META-INF/versions/8/A.class", [])]) = none := by
  decide +kernel

set_option maxRecDepth 100000 in
/-- An archive with bytes before it (a JAR that can be executed) is not read, though the reader of archives shows its entries. -/
theorem c59_prepended_fails :
    sampleParse 17 [("A.class", sampleA 1)] (sampleJar [("A.class", [])]) = some [("A.class", none, 1)] ∧
    sampleParse 17 [("A.class", sampleA 1)] (ascii "#!/bin/sh\n" ++ sampleJar [("A.class", [])]) = none := by
  decide +kernel

set_option maxRecDepth 100000 in
/-- A comment with the bytes of an end record hides the archive. -/
theorem c59_comment_fails :
    directory (sampleZip 0 ["A.class"] (ascii "see below ")) 10 = some 1 ∧
    directory (sampleZip 0 ["A.class"] (ascii "see below " ++ sampleZip 85 [] [])) 10 = some 0 ∧
    directory (sampleZip 0 ["A.class"] (ascii "see below " ++ sampleZip 0 [] [])) 10 = none := by
  decide +kernel

end Verif.Archive
