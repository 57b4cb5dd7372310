import Verif.Spec.ProjectFiles
/-!
C75: every file of a project is indexed once, and those that requests wait for in time.
-/
namespace Verif.ProjectFiles

/-! ### The walk -/

mutual
theorem filesOf_prefix (here : Path) (n : Node) : ∀ p ∈ filesOf here n, ∃ r, p = here ++ n.name :: r := by
  match n with
  | .file name => intro p hp; simp [filesOf] at hp; exact ⟨[], by rw [hp]; rfl⟩
  | .link name => intro p hp; simp [filesOf] at hp
  | .dir name kids =>
    intro p hp
    obtain ⟨n', r, -, h⟩ := filesOfAll_prefix (here ++ [name]) kids p (by simpa [filesOf] using hp)
    exact ⟨n'.name :: r, by rw [h]; simp [Node.name]⟩

theorem filesOfAll_prefix (here : Path) (ns : List Node) : ∀ p ∈ filesOfAll here ns, ∃ n r, n ∈ ns ∧ p = here ++ Node.name n :: r := by
  match ns with
  | [] => intro p hp; simp [filesOfAll] at hp
  | n :: ns =>
    intro p hp
    simp only [filesOfAll, List.mem_append] at hp
    rcases hp with hp | hp
    · obtain ⟨r, h⟩ := filesOf_prefix here n p hp
      exact ⟨n, r, by simp, h⟩
    · obtain ⟨n', r, h1, h2⟩ := filesOfAll_prefix here ns p hp
      exact ⟨n', r, by simp [h1], h2⟩
end

theorem git_skipped (T : Tables) (P : Policy) {p : Path} (h : ".git" ∈ p) : includes T P p = false := by
  have : isGitPath p = true := by unfold isGitPath; exact List.any_eq_true.mpr ⟨_, h, by simp⟩
  unfold includes
  rw [this]
  simp

mutual
theorem walk_eq (T : Tables) (P : Policy) (here : Path) (n : Node) : walk T P here n = (filesOf here n).filter (includes T P) := by
  match n with
  | .file name => simp only [walk, filesOf, List.filter_cons, List.filter_nil]
  | .link name => simp [walk, filesOf]
  | .dir name kids =>
    simp only [walk, filesOf]
    split
    · next h =>
      have hg : name = ".git" := by simpa using h
      symm
      rw [List.filter_eq_nil_iff]
      intro p hp
      obtain ⟨n', r, -, h⟩ := filesOfAll_prefix _ kids p hp
      rw [git_skipped T P (by rw [h, hg]; simp)]
      simp
    · exact walkAll_eq T P (here ++ [name]) kids

theorem walkAll_eq (T : Tables) (P : Policy) (here : Path) (ns : List Node) : walkAll T P here ns = (filesOfAll here ns).filter (includes T P) := by
  match ns with
  | [] => rfl
  | n :: ns => rw [walkAll, filesOfAll, List.filter_append, walk_eq T P here n, walkAll_eq T P here ns]
end

mutual
theorem filesOf_nodup (here : Path) (n : Node) (h : n.Distinct) : (filesOf here n).Nodup := by
  match n with
  | .file name => simp [filesOf]
  | .link name => simp [filesOf]
  | .dir name kids => exact filesOfAll_nodup _ kids h

theorem filesOfAll_nodup (here : Path) (ns : List Node) (h : DistinctAll ns) : (filesOfAll here ns).Nodup := by
  match ns with
  | [] => simp [filesOfAll]
  | n :: ns =>
    obtain ⟨h1, h2, h3⟩ := h
    rw [filesOfAll, List.nodup_append]
    refine ⟨filesOf_nodup here n h1, filesOfAll_nodup here ns h3, fun a ha b hb hab => ?_⟩
    obtain ⟨r, e1⟩ := filesOf_prefix here n a ha
    obtain ⟨n', r', hn, e2⟩ := filesOfAll_prefix here ns b hb
    rw [e1, e2] at hab
    have := List.append_cancel_left hab
    injection this with this
    exact h2 n' hn this.symm
end

/-- The walk, which does not enter `.git`, finds exactly the files that the policy includes, each once. The same policy decides on
changes on disk. -/
theorem c75_walk (T : Tables) (P : Policy) (ns : List Node) (p : Path) :
    (p ∈ walkAll T P [] ns ↔ p ∈ filesOfAll [] ns ∧ includes T P p = true) ∧ (DistinctAll ns → (walkAll T P [] ns).Nodup) := by
  rw [walkAll_eq]
  exact ⟨List.mem_filter, fun h => (filesOfAll_nodup [] ns h).filter _⟩

/-- Indexed is exactly what is neither excluded nor below `.git` nor a signature, and is included or is Ruby of the project itself. -/
theorem c75_policy (T : Tables) (P : Policy) (p : Path) :
    includes T P p = true ↔ ".git" ∉ p ∧ isRbs p = false ∧ P.excluded p = false ∧
      (P.included p = true ∨ (shouldIndex T p = true ∧ isExternal p = false)) := by
  have hg : isGitPath p = true ↔ ".git" ∈ p := by
    unfold isGitPath
    rw [List.any_eq_true]
    constructor
    · rintro ⟨x, hx, h⟩
      simp only [beq_iff_eq] at h
      exact h ▸ hx
    · intro h; exact ⟨_, h, by simp⟩
  unfold includes
  cases e : isGitPath p with
  | true => simp [hg.1 e]
  | false =>
    have hn : ".git" ∉ p := fun h => by rw [hg.2 h] at e; cases e
    cases isRbs p <;> cases P.excluded p <;> simp [hn]

/-- An included signature is not indexed as Ruby. -/
theorem c75_signatures : includes ⟨["rb", "rbs"], []⟩ ⟨fun _ => true, fun _ => false⟩ ["sig", "a.rbs"] = false ∧
    includes ⟨["rb", "rbs"], []⟩ ⟨fun _ => true, fun _ => false⟩ ["sig", "a.rb"] = true := by
  decide +kernel

def tables : Tables := ⟨["rb", "rake", "erb"], ["Rakefile", "Gemfile"]⟩

def plain : Policy := ⟨fun _ => false, fun _ => false⟩

/-- Names of directories like `log` and `tmp` are looked for at any depth: a project's own code below `lib/log` is not indexed. -/
theorem c75_log_fails : includes tables plain ["lib", "log", "entry.rb"] = false ∧ includes tables plain ["lib", "logs", "entry.rb"] = true := by decide +kernel

/-- A link to a file is included when it changes, but not found by the walk. -/
theorem c75_link_fails : includes tables plain ["lib", "a.rb"] = true ∧ walkAll tables plain [] [.dir "lib" [.link "a.rb"]] = [] := by
  constructor
  · decide +kernel
  · decide +kernel

theorem c75_walk_example :
    walkAll tables plain [] [.file "Gemfile", .file "a.txt", .dir ".git" [.file "x.rb"], .dir "lib" [.file "a.rb", .file ".rb", .file "b.html.erb", .file "b.rbs"]]
      = [["Gemfile"], ["lib", "a.rb"], ["lib", "b.html.erb"]] := by decide +kernel

/-! ### The scan for `require` -/

theorem utf8_pos (c : Char) : 0 < c.utf8Size := Char.utf8Size_pos c

theorem findByte_append {q : Char} {pre rest : List Char} (h : q ∉ pre) : findByte q (pre ++ q :: rest) = some (pre.map Char.utf8Size).sum := by
  induction pre with
  | nil => simp [findByte]
  | cons c pre ih =>
    simp only [List.mem_cons, not_or] at h
    rw [List.cons_append, findByte, if_neg (fun e => h.1 e.symm), ih h.2]
    simp [Nat.add_comm]

theorem findByte_none {q : Char} {l : List Char} (h : q ∉ l) : findByte q l = none := by
  induction l with
  | nil => rfl
  | cons c l ih =>
    simp only [List.mem_cons, not_or] at h
    rw [findByte, if_neg (fun e => h.1 e.symm), ih h.2]
    rfl

theorem dropBytes_append (pre rest : List Char) : dropBytes (pre.map Char.utf8Size).sum (pre ++ rest) = rest := by
  induction pre with
  | nil => cases rest <;> rfl
  | cons c pre ih =>
    have := utf8_pos c
    have e : (List.map Char.utf8Size (c :: pre)).sum = c.utf8Size + (pre.map Char.utf8Size).sum := by simp
    rw [e, List.cons_append]
    obtain ⟨n, hn⟩ : ∃ n, c.utf8Size + (pre.map Char.utf8Size).sum = n + 1 := ⟨_, (Nat.succ_pred_eq_of_pos (by omega)).symm⟩
    rw [hn, dropBytes, ← hn, Nat.add_sub_cancel_left, ih]
    exact fun h => by omega

theorem takeBytes_append (pre rest : List Char) : takeBytes (pre.map Char.utf8Size).sum (pre ++ rest) = pre := by
  induction pre with
  | nil => cases rest <;> rfl
  | cons c pre ih =>
    have := utf8_pos c
    have e : (List.map Char.utf8Size (c :: pre)).sum = c.utf8Size + (pre.map Char.utf8Size).sum := by simp
    rw [e, List.cons_append]
    obtain ⟨n, hn⟩ : ∃ n, c.utf8Size + (pre.map Char.utf8Size).sum = n + 1 := ⟨_, (Nat.succ_pred_eq_of_pos (by omega)).symm⟩
    rw [hn, takeBytes, ← hn, Nat.add_sub_cancel_left, ih]
    exact fun h => by omega

theorem ascii_sum {l : List Char} (h : ∀ c ∈ l, c.utf8Size = 1) : (l.map Char.utf8Size).sum = l.length := by
  induction l with
  | nil => rfl
  | cons c l ih => simp [h c (by simp), ih (fun c hc => h c (by simp [hc])), Nat.add_comm]

theorem quoted_eq {pre body rest : List Char} {q : Char} (hq : q = '"' ∨ (q = '\'' ∧ '"' ∉ pre ++ q :: (body ++ q :: rest))) (hp : q ∉ pre) (ha : ∀ c ∈ pre, c.utf8Size = 1)
    (hb : q ∉ body) : quoted (pre ++ q :: (body ++ q :: rest)) = .ok (some body) := by
  have hs := ascii_sum ha
  have hf : (findByte '"' (pre ++ q :: (body ++ q :: rest))).or (findByte '\'' (pre ++ q :: (body ++ q :: rest))) = some pre.length := by
    rcases hq with rfl | ⟨rfl, hno⟩
    · rw [findByte_append hp, hs]; rfl
    · rw [findByte_none hno, findByte_append hp, hs]; rfl
  unfold quoted
  rw [hf]
  dsimp only
  have hget : (pre ++ q :: (body ++ q :: rest))[pre.length]? = some q := by simp
  rw [hget]
  dsimp only
  have hq1 : q.utf8Size = 1 := by rcases hq with rfl | ⟨rfl, -⟩ <;> decide
  have hd : dropBytes (pre.length + 1) (pre ++ q :: (body ++ q :: rest)) = body ++ q :: rest := by
    have := dropBytes_append (pre ++ [q]) (body ++ q :: rest)
    rw [List.map_append, List.sum_append, hs] at this
    simp only [List.map_cons, List.map_nil, List.sum_cons, List.sum_nil, hq1, Nat.add_zero, List.append_assoc, List.cons_append, List.nil_append] at this
    exact this
  rw [hd, findByte_append hb]
  dsimp only
  rw [takeBytes_append]

/-- The text between the quotes is found if nothing but ASCII stands before them, and they are the first ones, and, if they are single
ones, no double one is on the line. -/
theorem c75_require {kw pre body rest : List Char} {q : Char} (hk : kw = "require ".toList ∨ kw = "require_relative ".toList)
    (hq : q = '"' ∨ (q = '\'' ∧ '"' ∉ pre ++ q :: (body ++ q :: rest))) (hp : q ∉ pre) (ha : ∀ c ∈ pre, c.utf8Size = 1) (hb : q ∉ body) :
    parseRequire (kw ++ (pre ++ q :: (body ++ q :: rest))) = .ok (some body) := by
  have hkw : ∀ c ∈ kw, c.utf8Size = 1 ∧ c ≠ '"' ∧ c ≠ '\'' := by rcases hk with rfl | rfl <;> decide +kernel
  have hpre : ("require ".toList.isPrefixOf (kw ++ (pre ++ q :: (body ++ q :: rest))) || "require_relative ".toList.isPrefixOf (kw ++ (pre ++ q :: (body ++ q :: rest)))) = true := by
    rcases hk with rfl | rfl
    · rw [List.isPrefixOf_iff_prefix.mpr (List.prefix_append _ _)]; rfl
    · rw [List.isPrefixOf_iff_prefix (l₁ := "require_relative ".toList) |>.mpr (List.prefix_append _ _)]; simp
  unfold parseRequire
  rw [if_pos hpre, ← List.append_assoc]
  apply quoted_eq
  · rcases hq with h | ⟨h, hno⟩
    · exact .inl h
    · refine .inr ⟨h, fun hm => ?_⟩
      rw [List.append_assoc, List.mem_append] at hm
      rcases hm with hm | hm
      · exact (hkw _ hm).2.1 rfl
      · exact hno hm
  · intro hm
    rcases List.mem_append.mp hm with hm | hm
    · rcases hq with rfl | ⟨rfl, -⟩
      · exact (hkw _ hm).2.1 rfl
      · exact (hkw _ hm).2.2 rfl
    · exact hp hm
  · intro c hc
    rcases List.mem_append.mp hc with hc | hc
    · exact (hkw c hc).1
    · exact ha c hc
  · exact hb

theorem findByte_lt {q : Char} {l : List Char} {n : Nat} (h : findByte q l = some n) (ha : ∀ c ∈ l, c.utf8Size = 1) : n < l.length := by
  induction l generalizing n with
  | nil => cases h
  | cons c l ih =>
    rw [findByte] at h
    split at h
    · injection h with h; subst h; simp
    · cases hf : findByte q l with
      | none => rw [hf] at h; cases h
      | some m =>
        rw [hf] at h
        simp only [Option.map_some, Option.some.injEq] at h
        have := ih hf (fun c hc => ha c (by simp [hc]))
        have := ha c (by simp)
        simp only [List.length_cons]
        omega

/-- A line of ASCII does not make the scan panic. -/
theorem c75_scan_ascii {line : List Char} (ha : ∀ c ∈ line, c.utf8Size = 1) : parseRequire line ≠ .panic ∧ parseGem line ≠ .panic := by
  have hq : quoted line ≠ .panic := by
    unfold quoted
    split
    · exact fun h => by cases h
    · next start hs =>
      have hlt : start < line.length := by
        cases h1 : findByte '"' line with
        | some n => rw [h1] at hs; injection hs with hs; subst hs; exact findByte_lt h1 ha
        | none => rw [h1] at hs; exact findByte_lt hs ha
      split
      · next h => rw [List.getElem?_eq_none_iff] at h; omega
      · dsimp only
        split <;> exact fun h => by cases h
  unfold parseRequire parseGem
  constructor
  · split
    · exact hq
    · exact fun h => by cases h
  · split
    · exact hq
    · exact fun h => by cases h

/-- Anything after a letter that takes more than a byte does: the byte of the quote is not its character. A file with such a line makes the
indexing of its project panic. -/
theorem c75_scan_panics_fails : parseRequire "require é'".toList = .panic ∧ parseGem "gem für'".toList = .panic := by
  constructor <;> rfl

/-- Double quotes are looked for first, in comments too. -/
theorem c75_comment_fails : parseRequire "require 'json' # the \"fast\" one".toList = .ok (some "fast".toList) := by rfl

/-- And parentheses are not known. -/
theorem c75_parentheses_fails : parseRequire "require('json')".toList = .ok none := by rfl

theorem c75_require_example : parseRequire "require 'net/http' if x".toList = .ok (some "net/http".toList) := by rfl

/-! ### Selecting files -/

variable {F K : Type} [BEq F] [LawfulBEq F]

theorem mem_addAll {s c : List F} {f : F} : f ∈ addAll s c ↔ f ∈ s ∨ f ∈ c := by
  unfold addAll
  induction c generalizing s with
  | nil => simp
  | cons a c ih =>
    rw [List.foldl_cons, ih]
    split
    · next h =>
      have ha : a ∈ s := by simpa using h
      constructor
      · rintro (h | h)
        · exact .inl h
        · exact .inr (by simp [h])
      · rintro (h | h)
        · exact .inl h
        · rcases List.mem_cons.mp h with rfl | h
          · exact .inl ha
          · exact .inr h
    · simp only [List.mem_cons]
      constructor
      · rintro ((h | h) | h)
        · exact .inr (.inl h)
        · exact .inl h
        · exact .inr (.inr h)
      · rintro (h | h | h)
        · exact .inl (.inr h)
        · exact .inl (.inl h)
        · exact .inr h

theorem length_addAll {s c : List F} : (addAll s c).length ≤ s.length + c.length := by
  unfold addAll
  induction c generalizing s with
  | nil => simp
  | cons a c ih =>
    rw [List.foldl_cons]
    refine Nat.le_trans ih ?_
    split <;> simp only [List.length_cons] <;> omega

theorem nodup_addAll {s c : List F} (h : s.Nodup) : (addAll s c).Nodup := by
  unfold addAll
  induction c generalizing s with
  | nil => exact h
  | cons a c ih =>
    rw [List.foldl_cons]
    apply ih
    split
    · exact h
    · next hn => exact List.nodup_cons.mpr ⟨by simpa using hn, h⟩

/-- What the loop over the keys maintains. -/
structure Selected (m : F → K → Bool) (files processed : List F) (keys : List K) (r : List F × List K × List K) : Prop where
  sub : ∀ f ∈ r.1, f ∈ files
  nodup : r.1.Nodup
  bound : r.1.length ≤ 64
  perm : (r.2.1 ++ r.2.2).Perm keys
  completed : ∀ k ∈ r.2.1, (∃ f ∈ files ++ processed, m f k = true) ∧ ∀ f ∈ files, m f k = true → f ∈ r.1
  deferred : ∀ k ∈ r.2.2, (∀ f ∈ files ++ processed, m f k = false) ∨ 8 < (files.filter (fun f => m f k)).length ∨ 64 < r.1.length + (files.filter (fun f => m f k)).length

theorem selectKeys_spec (m : F → K → Bool) (files processed : List F) (keys seen : List K) (r : List F × List K × List K) (h : Selected m files processed seen r) :
    Selected m files processed (seen ++ keys) (selectKeys m files processed keys r) := by
  induction keys generalizing seen r with
  | nil => simpa [selectKeys] using h
  | cons k ks ih =>
    obtain ⟨sel, done, later⟩ := r
    have e : seen ++ k :: ks = (seen ++ [k]) ++ ks := by simp
    have hperm1 : ((done ++ [k]) ++ later).Perm (seen ++ [k]) := by
      have h1 : ((done ++ [k]) ++ later).Perm ((done ++ later) ++ [k]) := by
        rw [List.append_assoc, List.append_assoc]
        exact (List.perm_append_comm).append_left done
      exact h1.trans (h.perm.append_right [k])
    have hperm2 : (done ++ (later ++ [k])).Perm (seen ++ [k]) := by
      rw [← List.append_assoc]
      exact h.perm.append_right [k]
    rw [selectKeys, e]
    split
    · next h0 =>
      have hnone : ∀ f ∈ files, m f k = false := by
        have := List.filter_eq_nil_iff.mp (List.eq_nil_of_length_eq_zero h0)
        intro f hf
        have := this f hf
        simpa using this
      split
      · next hp =>
        obtain ⟨g, hg, hgk⟩ := List.any_eq_true.mp hp
        refine ih _ _ ⟨h.sub, h.nodup, h.bound, hperm1, fun x hx => ?_, h.deferred⟩
        rcases List.mem_append.mp hx with hx | hx
        · exact h.completed x hx
        · have hx : x = k := by simpa using hx
          subst hx
          exact ⟨⟨g, by simp [hg], hgk⟩, fun f hf hm => by rw [hnone f hf] at hm; cases hm⟩
      · next hp =>
        refine ih _ _ ⟨h.sub, h.nodup, h.bound, hperm2, h.completed, fun x hx => ?_⟩
        rcases List.mem_append.mp hx with hx | hx
        · exact h.deferred x hx
        · have hx : x = k := by simpa using hx
          subst hx
          refine .inl fun f hf => ?_
          rcases List.mem_append.mp hf with hf | hf
          · exact hnone f hf
          · have := List.any_eq_false.mp (by simpa using hp) f hf
            simpa using this
    · next h0 =>
      split
      · next hbig =>
        refine ih _ _ ⟨h.sub, h.nodup, h.bound, hperm2, h.completed, fun x hx => ?_⟩
        rcases List.mem_append.mp hx with hx | hx
        · exact h.deferred x hx
        · have hx : x = k := by simpa using hx
          subst hx
          exact .inr hbig
      · next hsmall =>
        have hlen := length_addAll (s := sel) (c := files.filter (fun f => m f k))
        have hge : sel.length ≤ (addAll sel (files.filter (fun f => m f k))).length := by
          clear hlen hsmall h0 hperm1 hperm2 ih h
          unfold addAll
          generalize files.filter (fun f => m f k) = c
          induction c generalizing sel with
          | nil => simp
          | cons a c ih =>
            rw [List.foldl_cons]
            refine Nat.le_trans ?_ (ih _)
            split <;> simp
        refine ih _ _ ⟨fun f hf => ?_, nodup_addAll h.nodup, ?_, hperm1, fun x hx => ?_, fun x hx => ?_⟩
        · rcases mem_addAll.mp hf with hf | hf
          · exact h.sub f hf
          · exact (List.mem_filter.mp hf).1
        · dsimp only at *
          omega
        · rcases List.mem_append.mp hx with hx | hx
          · obtain ⟨h1, h2⟩ := h.completed x hx
            exact ⟨h1, fun f hf hm => mem_addAll.mpr (.inl (h2 f hf hm))⟩
          · have hx : x = k := by simpa using hx
            subst hx
            constructor
            · obtain ⟨f, hf⟩ := List.exists_mem_of_length_pos (Nat.pos_of_ne_zero h0)
              exact ⟨f, by simp [(List.mem_filter.mp hf).1], (List.mem_filter.mp hf).2⟩
            · exact fun f hf hm => mem_addAll.mpr (.inr (List.mem_filter.mpr ⟨hf, hm⟩))
        · rcases h.deferred x hx with h1 | h1 | h1
          · exact .inl h1
          · exact .inr (.inl h1)
          · refine .inr (.inr ?_)
            dsimp only at *
            omega

/-- What a selection is: its files are some of those that are left, in their order, at most 64; each key is either completed, that is, it
matches a file of the project, and all that it matches are selected or done; or deferred, that is, it matches none, or more than eight,
or more than would fit. -/
theorem c75_select (m : F → K → Bool) (files processed : List F) (hn : files.Nodup) (keys : List K) :
    let s := (select m files processed keys).1
    s.files.Sublist files ∧ (s.files ++ (select m files processed keys).2).Perm files ∧ s.files.length ≤ 64 ∧ (s.completed ++ s.deferred).Perm keys ∧
    (∀ k ∈ s.completed, (∃ f ∈ files ++ processed, m f k = true) ∧ ∀ f ∈ files, m f k = true → f ∈ s.files) ∧
    (∀ k ∈ s.deferred, (∀ f ∈ files ++ processed, m f k = false) ∨ 8 < (files.filter (fun f => m f k)).length ∨
      64 < s.files.length + (files.filter (fun f => m f k)).length) := by
  have h := selectKeys_spec m files processed keys [] ([], [], []) ⟨fun f hf => (by cases hf), List.nodup_nil, by simp, by simp, fun k hk => (by cases hk), fun k hk => (by cases hk)⟩
  rw [List.nil_append] at h
  have hlen : (files.filter (fun f => (selectKeys m files processed keys ([], [], [])).1.contains f)).length = (selectKeys m files processed keys ([], [], [])).1.length := by
    apply List.Perm.length_eq
    rw [List.perm_ext_iff_of_nodup (hn.filter _) h.nodup]
    intro f
    simp only [List.mem_filter, List.contains_iff_mem]
    exact ⟨fun h => h.2, fun hf => ⟨h.sub f hf, hf⟩⟩
  unfold select
  dsimp only
  refine ⟨List.filter_sublist, List.filter_append_perm _ files, by rw [hlen]; exact h.bound, h.perm, fun k hk => ?_, fun k hk => ?_⟩
  · obtain ⟨h1, h2⟩ := h.completed k hk
    exact ⟨h1, fun f hf hm => List.mem_filter.mpr ⟨hf, by simpa using h2 f hf hm⟩⟩
  · rw [hlen]
    exact h.deferred k hk

/-! ### The life cycle -/

theorem record_eq {fs processed : List F} (h : (fs ++ processed).Nodup) : record processed fs = some (fs.reverse ++ processed) := by
  induction fs generalizing processed with
  | nil => rfl
  | cons f fs ih =>
    rw [List.cons_append, List.nodup_cons] at h
    rw [record, if_neg (by simpa using fun hf => h.1 (List.mem_append.mpr (.inr hf))), ih]
    · simp
    · refine (List.perm_middle.nodup_iff).mpr (List.nodup_cons.mpr h)

theorem collect_eq (E : Env F K) {files : List F} (r : Bool) {p : Project F} (h : (files ++ p.processed).Nodup) :
    collect E files r p = if files.all E.readable then .ok ⟨files.reverse ++ p.processed, if r then false else p.plan || files.any E.java⟩ else .error := by
  unfold collect
  rw [record_eq h]

theorem collect_true (E : Env F K) {files : List F} {p : Project F} (h : (files ++ p.processed).Nodup) :
    collect E files true p = if files.all E.readable then .ok ⟨files.reverse ++ p.processed, false⟩ else .error := collect_eq E true h

theorem collectBatch_eq (E : Env F K) {files : List F} (r : Bool) {p : Project F} (h : (files ++ p.processed).Nodup) :
    (∃ plan, collectBatch E files r p = .ok ⟨files.reverse ++ p.processed, plan⟩ ∧ (∀ f ∈ files, E.readable f = true) ∧ (files ≠ [] → r = true → plan = false) ∧ (files = [] → plan = p.plan)) ∨
      (collectBatch E files r p = .error ∧ ∃ f ∈ files, E.readable f = false) := by
  cases files with
  | nil => exact .inl ⟨p.plan, rfl, fun f hf => (by cases hf), fun h => absurd rfl h, fun _ => rfl⟩
  | cons f fs =>
    rw [collectBatch, collect_eq E r h]
    by_cases ha : (f :: fs).all E.readable = true
    · rw [if_pos ha]
      exact .inl ⟨_, rfl, fun g hg => List.all_eq_true.mp ha g hg, fun _ hr => by rw [hr]; rfl, fun h => (by cases h)⟩
    · rw [if_neg ha]
      refine .inr ⟨rfl, ?_⟩
      rw [Bool.not_eq_true, List.all_eq_false] at ha
      obtain ⟨g, hg, hr⟩ := ha
      exact ⟨g, hg, by simpa using hr⟩

theorem nextBatch_spec (E : Env F K) (keys : List K) {pending : List F} (p : Project F) (hn : pending.Nodup) :
    let b := nextBatch E keys pending p
    (b.1.files ++ b.2.2).Perm pending ∧ b.1.files.length ≤ 512 ∧ (b.2.2.isEmpty = false → b.1.files ≠ []) ∧ (pending ≠ [] → b.1.files ≠ []) ∧
    (∀ k ∈ b.1.completed, (∃ f ∈ pending ++ p.processed, E.m f k = true) ∧ ∀ f ∈ pending, E.m f k = true → f ∈ b.1.files) := by
  obtain ⟨h1, h2, h3, h4, h5, h6⟩ := c75_select E.m pending p.processed hn keys
  dsimp only at *
  unfold nextBatch
  dsimp only
  split
  · next he =>
    rw [List.isEmpty_iff] at he
    refine ⟨by simp, by simp [Nat.min_le_left], ?_, ?_, fun k hk => ?_⟩
    · cases pending with
      | nil => simp
      | cons a l => simp
    · cases pending with
      | nil => simp
      | cons a l => simp
    · obtain ⟨a, b⟩ := h5 k hk
      refine ⟨a, fun f hf hm => ?_⟩
      have := b f hf hm
      rw [he] at this
      cases this
  · next he =>
    have hne : (select E.m pending p.processed keys).1.files ≠ [] := fun h => he (by rw [h]; rfl)
    exact ⟨h2, Nat.le_trans h3 (by omega), fun _ => hne, fun _ => hne, h5⟩

structure LoopOk (E : Env F K) (pending processed : List F) (es : List (Entry F K)) : Prop where
  perm : (es.flatMap (fun e => e.files)).Perm pending
  bound : ∀ e ∈ es, e.files.length ≤ 512
  short : es.length ≤ pending.length + 1
  readable : ∀ f ∈ pending, E.readable f = true
  inTime : ∀ before e after, es = before ++ e :: after → ∀ k ∈ e.completed,
    (∃ f ∈ pending ++ processed, E.m f k = true) ∧ ∀ f ∈ pending, E.m f k = true → ∃ b ∈ before ++ [e], f ∈ b.files

theorem loop_spec (E : Env F K) (drain : Nat → List K) (cancelled : Nat → Bool) (i : Nat) (pending : List F) (p : Project F)
    (hn : (pending ++ p.processed).Nodup) (hplan : pending = [] → p.plan = false) :
    (∃ es, loop E drain cancelled i pending p = .ok es ∧ LoopOk E pending p.processed es) ∨
      (loop E drain cancelled i pending p = .error ∧ ((∃ j, cancelled j = true) ∨ ∃ f ∈ pending, E.readable f = false)) := by
  generalize hk : pending.length = k
  induction k using Nat.strongRecOn generalizing i pending p with
  | _ k ih =>
    rw [loop.eq_def]
    split
    · next hc => exact .inr ⟨rfl, .inl ⟨i, hc⟩⟩
    · obtain ⟨b1, b2, b3, b4, b5⟩ := nextBatch_spec E (drain i) p (List.nodup_append.mp hn).1
      have hlt := nextBatch_lt E (drain i) pending p
      dsimp only at *
      generalize nextBatch E (drain i) pending p = b at *
      have hn' : (b.1.files ++ (b.2.2 ++ p.processed)).Nodup := by
        rw [← List.append_assoc]
        exact ((b1.append_right p.processed).nodup_iff).mpr hn
      have hnb : (b.1.files ++ p.processed).Nodup := by
        refine hn'.sublist (List.Sublist.append_left ?_ _)
        exact List.sublist_append_right _ _
      rcases collectBatch_eq E (b.2.1 || b.2.2.isEmpty) hnb with ⟨plan, c1, c2, c3, c4⟩ | ⟨c1, f, hf, c2⟩
      · rw [c1]
        dsimp only
        split
        · next he =>
          have hrest : b.2.2 = [] := by simpa using he
          have hp : plan = false := by
            by_cases hbf : b.1.files = []
            · rw [c4 hbf]
              apply hplan
              by_cases hpe : pending = []
              · exact hpe
              · exact absurd hbf (b4 hpe)
            · exact c3 hbf (by rw [he]; simp)
          rw [hp]
          refine .inl ⟨_, rfl, ?_, ?_, ?_, ?_, ?_⟩
          · rw [hrest, List.append_nil] at b1
            simpa using b1
          · intro e he; simp at he; subst he; exact b2
          · simp
          · intro f hf
            rw [hrest, List.append_nil] at b1
            exact c2 f (b1.mem_iff.mpr hf)
          · intro before e after heq k hk
            cases before with
            | nil =>
              injection heq with h1 h2
              subst h1
              obtain ⟨d1, d2⟩ := b5 k hk
              exact ⟨d1, fun f hf hm => ⟨_, List.mem_append.mpr (.inr List.mem_cons_self), d2 f hf hm⟩⟩
            | cons x xs => injection heq with h1 h2; simp at h2
        · next he =>
          have hne : b.2.2.isEmpty = false := by simpa using he
          have hl := hlt he
          have hnr : (b.2.2 ++ (b.1.files.reverse ++ p.processed)).Nodup := by
            refine (List.Perm.nodup_iff ?_).mpr hn'
            rw [← List.append_assoc, ← List.append_assoc]
            refine List.Perm.append_right _ ?_
            exact (List.perm_append_comm).trans (List.Perm.append_right _ (List.reverse_perm _))
          rcases ih b.2.2.length (by omega) (i + 1) b.2.2 ⟨b.1.files.reverse ++ p.processed, plan⟩ hnr (fun h => by rw [h] at hne; cases hne) rfl with ⟨es, e1, e2⟩ | ⟨e1, e2⟩
          · rw [e1]
            refine .inl ⟨_, rfl, ?_, ?_, ?_, ?_, ?_⟩
            · rw [List.flatMap_cons]
              exact (e2.perm.append_left _).trans b1
            · intro e he
              rcases List.mem_cons.mp he with rfl | he
              · exact b2
              · exact e2.bound e he
            · have := e2.short
              simp only [List.length_cons]
              omega
            · intro f hf
              rcases List.mem_append.mp (b1.mem_iff.mpr hf) with hf | hf
              · exact c2 f hf
              · exact e2.readable f hf
            · intro before e after heq k hk
              cases before with
              | nil =>
                injection heq with h1 h2
                subst h1
                obtain ⟨d1, d2⟩ := b5 k hk
                exact ⟨d1, fun f hf hm => ⟨_, List.mem_append.mpr (.inr List.mem_cons_self), d2 f hf hm⟩⟩
              | cons x xs =>
                injection heq with h1 h2
                subst h1
                obtain ⟨⟨g, hg, hgm⟩, d2⟩ := e2.inTime xs e after h2 k hk
                refine ⟨⟨g, ?_, hgm⟩, fun f hf hm => ?_⟩
                · simp only [List.mem_append, List.mem_reverse] at hg ⊢
                  rcases hg with hg | hg | hg
                  · exact .inl (b1.mem_iff.mp (List.mem_append.mpr (.inr hg)))
                  · exact .inl (b1.mem_iff.mp (List.mem_append.mpr (.inl hg)))
                  · exact .inr hg
                · rcases List.mem_append.mp (b1.mem_iff.mpr hf) with hf | hf
                  · exact ⟨_, List.mem_append.mpr (.inl (List.mem_cons_self)), hf⟩
                  · obtain ⟨x, hx, hfx⟩ := d2 f hf hm
                    exact ⟨x, by rw [List.cons_append]; exact List.mem_cons_of_mem _ hx, hfx⟩
          · rw [e1]
            refine .inr ⟨rfl, ?_⟩
            rcases e2 with e2 | ⟨f, hf, hr⟩
            · exact .inl e2
            · exact .inr ⟨f, b1.mem_iff.mp (List.mem_append.mpr (.inr hf)), hr⟩
      · rw [c1]
        exact .inr ⟨rfl, .inr ⟨f, b1.mem_iff.mp (List.mem_append.mpr (.inl hf)), c2⟩⟩

/-- A run of a project whose files can be read, and that is not cancelled, indexes each file exactly once, whatever requests come when; no
assertion fails; every key that is reported as completed is so in time; all batches but that of the open documents are bounded, and there
are no more than files, and four. -/
theorem c75_once (E : Env F K) (first second : List K) (drain : Nat → List K) (cancelled : Nat → Bool) {files : List F} (hn : files.Nodup) :
    (∃ es, run E first second drain cancelled files = .ok es ∧ (es.flatMap (fun e => e.files)).Perm files ∧ InTime E.m files es ∧
      es.length ≤ files.length + 4 ∧ (∀ (j : Nat) (e : Entry F K), j ≠ 1 → es[j]? = some e → e.files.length ≤ 512) ∧ ∀ f ∈ files, E.readable f = true) ∨
    (run E first second drain cancelled files = .error ∧ ((∃ j, cancelled j = true) ∨ ∃ f ∈ files, E.readable f = false)) := by
  obtain ⟨s1, s2, s3, s4, s5, s6⟩ := c75_select E.m files [] hn first
  unfold run
  dsimp only at *
  generalize hs : select E.m files [] first = s at *
  have hpart : (s.2.filter E.prio ++ s.2.filter (fun f => !E.prio f)).Perm s.2 := List.filter_append_perm _ _
  generalize hnav : s.2.filter E.prio = nav at *
  generalize htail : s.2.filter (fun f => !E.prio f) = tail at *
  have hall : (s.1.files ++ (nav ++ tail)).Perm files := (hpart.append_left _).trans s2
  have hnall := hall.nodup_iff.mpr hn
  have hn1 : (s.1.files ++ (⟨[], false⟩ : Project F).processed).Nodup := by
    simp only [List.append_nil]
    exact (List.nodup_append.mp hnall).1
  rw [collect_true E hn1]
  by_cases ha1 : s.1.files.all E.readable = true
  · rw [if_pos ha1]
    dsimp only
    simp only [List.append_nil]
    have hn2 : (nav ++ (⟨s.1.files.reverse, false⟩ : Project F).processed).Nodup := by
      have : (s.1.files ++ nav).Nodup := hnall.sublist ((List.sublist_append_left _ _).append_left _)
      exact (((List.reverse_perm _).symm.append_right nav).trans List.perm_append_comm).nodup_iff.mp this
    rw [collect_true E hn2]
    by_cases ha2 : nav.all E.readable = true
    · rw [if_pos ha2]
      dsimp only
      have htn : tail.Nodup := (List.nodup_append.mp (List.nodup_append.mp hnall).2.1).2.1
      obtain ⟨t1, t2, t3, t4, t5, t6⟩ := c75_select E.m tail (nav.reverse ++ s.1.files.reverse) htn second
      dsimp only at *
      generalize ht : select E.m tail (nav.reverse ++ s.1.files.reverse) second = t at *
      have hperm3 : ((t.1.files ++ t.2) ++ (nav.reverse ++ s.1.files.reverse)).Perm files := by
        refine (t2.append_right _).trans ?_
        refine List.perm_append_comm.trans ?_
        refine List.Perm.trans ?_ hall
        rw [← List.append_assoc]
        refine List.Perm.append_right _ ?_
        exact ((List.reverse_perm _).append (List.reverse_perm _)).trans List.perm_append_comm
      have hnn := hperm3.nodup_iff.mpr hn
      have hn3 : (t.1.files ++ (⟨nav.reverse ++ s.1.files.reverse, false⟩ : Project F).processed).Nodup := by
        rw [List.append_assoc] at hnn
        exact hnn.sublist ((List.sublist_append_right _ _).append_left _)
      have hn4 : (t.2 ++ (t.1.files.reverse ++ (nav.reverse ++ s.1.files.reverse))).Nodup := by
        refine (List.Perm.nodup_iff ?_).mpr hnn
        rw [← List.append_assoc]
        refine List.Perm.append_right _ ?_
        exact List.perm_append_comm.trans (List.Perm.append_right _ (List.reverse_perm _))
      rcases collectBatch_eq E true hn3 with ⟨plan, c1, c2, c3, c4⟩ | ⟨c1, f, hf, c2⟩
      · rw [c1]
        dsimp only
        have hplan : plan = false := by
          by_cases h : t.1.files = []
          · exact c4 h
          · exact c3 h rfl
        rcases loop_spec E drain cancelled 0 t.2 ⟨t.1.files.reverse ++ (nav.reverse ++ s.1.files.reverse), plan⟩ hn4 (fun _ => hplan) with ⟨es, e1, e2⟩ | ⟨e1, e2⟩
        · rw [e1]
          have hflat : (s.1.files ++ (nav ++ (t.1.files ++ es.flatMap (fun e => e.files)))).Perm files :=
            (((e2.perm.append_left _).trans t2).append_left nav |>.append_left s.1.files).trans hall
          refine .inl ⟨_, rfl, ?_, ?_, ?_, ?_, ?_⟩
          · simpa [List.flatMap_cons] using hflat
          · intro before e after heq k hk
            match before with
            | [] =>
              injection heq with h1 h2
              subst h1
              obtain ⟨⟨g, hg, hgm⟩, d2⟩ := s5 k hk
              exact ⟨⟨g, by simpa using hg, hgm⟩, fun f hf hm => ⟨_, List.mem_append.mpr (.inr List.mem_cons_self), d2 f hf hm⟩⟩
            | [x] =>
              injection heq with h1 h2
              injection h2 with h2 h3
              subst h2
              cases hk
            | [x, y] =>
              injection heq with h1 h2
              injection h2 with h2 h3
              injection h3 with h3 h4
              subst h1 h2 h3
              obtain ⟨⟨g, hg, hgm⟩, d2⟩ := t5 k hk
              refine ⟨⟨g, ?_, hgm⟩, fun f hf hm => ?_⟩
              · apply hall.mem_iff.mp
                simp only [List.mem_append, List.mem_reverse] at hg ⊢
                rcases hg with hg | hg | hg
                · exact .inr (.inr hg)
                · exact .inr (.inl hg)
                · exact .inl hg
              · have := hall.mem_iff.mpr hf
                simp only [List.mem_append] at this
                rcases this with h | h | h
                · exact ⟨_, List.mem_append.mpr (.inl (List.mem_cons_self)), h⟩
                · exact ⟨_, List.mem_append.mpr (.inl (List.mem_cons_of_mem _ List.mem_cons_self)), h⟩
                · exact ⟨_, List.mem_append.mpr (.inr List.mem_cons_self), d2 f h hm⟩
            | x :: y :: z :: before =>
              injection heq with h1 h2
              injection h2 with h2 h3
              injection h3 with h3 h4
              subst h1 h2 h3
              obtain ⟨⟨g, hg, hgm⟩, d2⟩ := e2.inTime before e after h4 k hk
              refine ⟨⟨g, ?_, hgm⟩, fun f hf hm => ?_⟩
              · apply hperm3.mem_iff.mp
                simp only [List.mem_append, List.mem_reverse] at hg ⊢
                rcases hg with hg | hg | hg | hg
                · exact .inl (.inr hg)
                · exact .inl (.inl hg)
                · exact .inr (.inl hg)
                · exact .inr (.inr hg)
              · have := hperm3.mem_iff.mpr hf
                simp only [List.mem_append, List.mem_reverse] at this
                rcases this with (h | h) | h | h
                · exact ⟨_, List.mem_append.mpr (.inl (List.mem_cons_of_mem _ (List.mem_cons_of_mem _ List.mem_cons_self))), h⟩
                · obtain ⟨b, hb, hfb⟩ := d2 f h hm
                  exact ⟨b, List.mem_cons_of_mem _ (List.mem_cons_of_mem _ (List.mem_cons_of_mem _ hb)), hfb⟩
                · exact ⟨_, List.mem_append.mpr (.inl (List.mem_cons_of_mem _ List.mem_cons_self)), h⟩
                · exact ⟨_, List.mem_append.mpr (.inl List.mem_cons_self), h⟩
          · have h1 := e2.short
            have h2 := hperm3.length_eq
            simp only [List.length_append, List.length_reverse, List.length_cons] at *
            omega
          · intro j e hj he
            match j, hj with
            | 0, _ => simp at he; subst he; dsimp only; omega
            | 2, _ => simp at he; subst he; dsimp only; omega
            | j + 3, _ =>
              simp at he
              exact e2.bound e (List.mem_of_getElem? he)
          · intro f hf
            have := hperm3.mem_iff.mpr hf
            simp only [List.mem_append, List.mem_reverse] at this
            rcases this with (h | h) | h | h
            · exact c2 f h
            · exact e2.readable f h
            · exact List.all_eq_true.mp ha2 f h
            · exact List.all_eq_true.mp ha1 f h
        · rw [e1]
          refine .inr ⟨rfl, ?_⟩
          rcases e2 with e2 | ⟨f, hf, hr⟩
          · exact .inl e2
          · exact .inr ⟨f, hperm3.mem_iff.mp (by simp [hf]), hr⟩
      · rw [c1]
        exact .inr ⟨rfl, .inr ⟨f, hperm3.mem_iff.mp (by simp [hf]), c2⟩⟩
    · rw [if_neg ha2]
      rw [Bool.not_eq_true, List.all_eq_false] at ha2
      obtain ⟨g, hg, hr⟩ := ha2
      exact .inr ⟨rfl, .inr ⟨g, hall.mem_iff.mp (by simp [hg]), by simpa using hr⟩⟩
  · rw [if_neg ha1]
    rw [Bool.not_eq_true, List.all_eq_false] at ha1
    obtain ⟨g, hg, hr⟩ := ha1
    exact .inr ⟨rfl, .inr ⟨g, hall.mem_iff.mp (by simp [hg]), by simpa using hr⟩⟩

/-- One file that cannot be read, for example as it is not UTF-8 or was removed meanwhile, fails the indexing of the whole project. -/
theorem c75_unreadable_fails (E : Env F K) (first second : List K) (drain : Nat → List K) (cancelled : Nat → Bool) {files : List F} (hn : files.Nodup)
    {f : F} (hf : f ∈ files) (hr : E.readable f = false) : run E first second drain cancelled files = .error := by
  rcases c75_once E first second drain cancelled hn with ⟨es, -, -, -, -, -, h⟩ | ⟨h, -⟩
  · rw [h f hf] at hr; cases hr
  · exact h

/-- Each key of a request, with a table of the files it matches. -/
def table (l : List (Nat × List Nat)) (f k : Nat) : Bool := l.any (fun e => e.1 == k && e.2.contains f)

def env : Env Nat Nat := ⟨table [(1, [7, 8]), (2, [3]), (3, [3, 5])], fun _ => true, fun f => f = 4, fun f => f = 5 || f = 6⟩

theorem c75_run_example : run env [2] [1] (fun i => if i = 0 then [3] else []) (fun _ => false) [1, 2, 3, 4, 5, 6, 7, 8]
    = .ok [⟨[3], [2], []⟩, ⟨[5, 6], [], []⟩, ⟨[7, 8], [1], []⟩, ⟨[1, 2, 4], [3], []⟩] := by
  simp [run, select, selectKeys, env, table, addAll, collect, record, collectBatch, loop, nextBatch]

/-- Sixty-four files are selected for eight keys; a ninth key whose only file is among them is deferred nevertheless, though its file is
indexed with this batch. -/
theorem c75_overlap_fails :
    let r := (select (fun f k : Nat => if k < 8 then f / 8 == k else f == 0) (List.range 100) [] [0, 1, 2, 3, 4, 5, 6, 7, 8]).1
    r.files = List.range 64 ∧ r.deferred = [8] := by decide +kernel

/-! ### Gems -/

/-- Gems of constants in open documents come first, in their order, and none is lost. -/
theorem c75_locked (first : F → Bool) (names : List F) :
    (prioritizeLocked first names).Perm names ∧ (∃ a b, prioritizeLocked first names = a ++ b ∧ (∀ n ∈ a, first n = true) ∧ (∀ n ∈ b, first n = false) ∧ a.Sublist names ∧ b.Sublist names) :=
  ⟨List.filter_append_perm _ _, _, _, rfl, fun n hn => (List.mem_filter.mp hn).2, fun n hn => by simpa using (List.mem_filter.mp hn).2, List.filter_sublist, List.filter_sublist⟩

theorem takeDemanded_spec [BEq K] [LawfulBEq K] (norm : F → K) (keys : List K) (names : List F) :
    let r := takeDemanded norm keys names
    (r.2.1 ++ r.1).Perm names ∧ r.1.Sublist names ∧ r.2.1 = r.2.2.map Prod.fst ∧ (∀ e ∈ r.2.2, norm e.1 = e.2 ∧ e.1 ∈ names) ∧ (r.2.2.map Prod.snd).Sublist keys ∧
    (keys.Nodup → ∀ k ∈ keys, (∃ n ∈ names, norm n = k) → k ∈ r.2.2.map Prod.snd) := by
  induction keys generalizing names with
  | nil => exact ⟨by simp [takeDemanded], by simp [takeDemanded], rfl, fun e he => (by cases he), by simp [takeDemanded], fun _ k hk => (by cases hk)⟩
  | cons k ks ih =>
    rw [takeDemanded]
    split
    · next hnone =>
      obtain ⟨h1, h2, h3, h4, h5, h6⟩ := ih names
      refine ⟨h1, h2, h3, h4, h5.cons _, fun hnd x hx hex => ?_⟩
      rcases List.mem_cons.mp hx with rfl | hx
      · obtain ⟨n, hn, rfl⟩ := hex
        have := List.find?_eq_none.mp hnone n hn
        simp at this
      · exact h6 (List.nodup_cons.mp hnd).2 x hx hex
    · next n hfind =>
      have hmem := List.mem_of_find?_eq_some hfind
      have hnk : norm n = k := by simpa using List.find?_some hfind
      obtain ⟨pre, post, hsplit, hpre⟩ : ∃ pre post, names = pre ++ n :: post ∧ ∀ x ∈ pre, ¬ (norm x == k) = true := by
        obtain ⟨-, pre, post, h1, h2⟩ := List.find?_eq_some_iff_append.mp hfind
        exact ⟨pre, post, h1, fun x hx => by simpa using h2 x hx⟩
      have herase : names.eraseP (fun n => norm n == k) = pre ++ post := by
        rw [hsplit, List.eraseP_append_right _ (fun x hx => by simpa using hpre x hx), List.eraseP_cons_of_pos (by simpa using hnk)]
      obtain ⟨h1, h2, h3, h4, h5, h6⟩ := ih (names.eraseP (fun n => norm n == k))
      dsimp only at *
      refine ⟨?_, h2.trans List.eraseP_sublist, ?_, ?_, ?_, fun hnd x hx hex => ?_⟩
      · rw [List.cons_append]
        refine (List.Perm.cons n h1).trans ?_
        rw [herase, hsplit]
        exact List.perm_middle.symm
      · rw [List.map_cons, ← h3]
      · intro e he
        rcases List.mem_cons.mp he with rfl | he
        · exact ⟨hnk, hmem⟩
        · obtain ⟨a, b⟩ := h4 e he
          exact ⟨a, List.mem_of_mem_eraseP b⟩
      · exact h5.cons_cons k
      · rw [List.map_cons]
        rcases List.mem_cons.mp hx with rfl | hx
        · exact List.mem_cons_self
        · obtain ⟨y, hy, rfl⟩ := hex
          refine List.mem_cons_of_mem _ (h6 (List.nodup_cons.mp hnd).2 _ hx ⟨y, ?_, rfl⟩)
          rw [herase]
          rw [hsplit] at hy
          simp only [List.mem_append, List.mem_cons] at hy ⊢
          rcases hy with hy | rfl | hy
          · exact .inl hy
          · rw [hnk] at hx
            exact absurd hx (List.nodup_cons.mp hnd).1
          · exact .inr hy

/-- Gems that requests wait for come first, in the order of the requests; none is lost, the others keep their order, and every request for
which there is a gem is matched with one of its name. -/
theorem c75_demanded [BEq K] [LawfulBEq K] (norm : F → K) {keys : List K} (hk : keys.Nodup) (names : List F) :
    let r := prioritizeDemanded norm keys names
    r.1.Perm names ∧ (∃ rest, r.1 = r.2.map Prod.fst ++ rest ∧ rest.Sublist names) ∧ (∀ e ∈ r.2, norm e.1 = e.2 ∧ e.1 ∈ names) ∧ (r.2.map Prod.snd).Sublist keys ∧
    (∀ k ∈ keys, (∃ n ∈ names, norm n = k) ↔ k ∈ r.2.map Prod.snd) := by
  obtain ⟨h1, h2, h3, h4, h5, h6⟩ := takeDemanded_spec norm keys names
  refine ⟨h1, ⟨_, ?_, h2⟩, h4, h5, fun k hkm => ⟨h6 hk k hkm, fun h => ?_⟩⟩
  · show (takeDemanded norm keys names).2.1 ++ _ = _
    rw [h3]
    rfl
  · obtain ⟨e, he, rfl⟩ := List.mem_map.mp h
    obtain ⟨a, b⟩ := h4 e he
    exact ⟨e.1, b, a⟩

/-- Of two gems whose names differ only in `-` and `_`, only the first is moved, and the request is reported as done after it. -/
theorem c75_twins_fails : prioritizeDemanded (fun n : Nat => n / 10) [4] [10, 40, 20, 41] = ([40, 10, 20, 41], [(40, 4)]) := by decide

/-! ### Matching -/

/-- A file named like the constant, whatever underscores are in its name, matches its key. -/
theorem c75_matches (key stem : List Char) :
    fileMatches key key = true ∧ (fileMatches stem key = true → stem <+: key ∨ key <+: stem) := by
  unfold fileMatches
  dsimp only
  constructor
  · simp
  · intro h
    simp only [Bool.or_eq_true, Bool.and_eq_true, beq_iff_eq, List.isPrefixOf_iff_prefix] at h
    rcases h with (h | h) | h
    · exact .inl (h ▸ List.prefix_refl _)
    · exact .inl h.2
    · exact .inr h.2

/-- Short names match only themselves. -/
theorem c75_matches_example : fileMatches "user".toList "users".toList = true ∧ fileMatches "api".toList "apikey".toList = false ∧ fileMatches "userscontroller".toList "user".toList = true := by
  decide +kernel

end Verif.ProjectFiles
