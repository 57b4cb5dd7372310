import Verif.Model.Erb
import Verif.Spec.Erb
import Verif.Lemmas.Utf8
namespace Verif.Erb
open Spec

/-! `findBytes` for a two-byte needle -/

theorem find_none {a b : UInt8} {hay : List UInt8} (h : findBytes [a, b] hay = none) : ¬ [a, b] <:+: hay := by
  induction hay with
  | nil => simp
  | cons c bs ih =>
    simp only [findBytes] at h
    split at h
    · cases h
    · rename_i hp
      rw [Option.map_eq_none_iff] at h
      rw [List.infix_cons_iff, not_or]
      refine ⟨?_, ih h⟩
      rwa [List.isPrefixOf_iff_prefix] at hp

theorem find_some {a b : UInt8} {hay : List UInt8} {k : Nat} (h : findBytes [a, b] hay = some k) :
    ∃ pre post, hay = pre ++ [a, b] ++ post ∧ pre.length = k ∧ ¬ [a, b] <:+: pre ++ [a] := by
  induction hay generalizing k with
  | nil => simp [findBytes] at h
  | cons c bs ih =>
    simp only [findBytes] at h
    split at h
    · rename_i hp
      simp only [Option.some.injEq] at h
      subst h
      rw [List.isPrefixOf_iff_prefix] at hp
      obtain ⟨post, hp⟩ := hp
      refine ⟨[], post, by simp [← hp], rfl, ?_⟩
      intro hi
      have := hi.length_le
      simp at this
    · rename_i hp
      rw [Option.map_eq_some_iff] at h
      obtain ⟨j, hj, rfl⟩ := h
      obtain ⟨pre, post, rfl, rfl, hn⟩ := ih hj
      refine ⟨c :: pre, post, by simp, by simp, ?_⟩
      rw [List.cons_append, List.infix_cons_iff, not_or]
      refine ⟨?_, hn⟩
      intro hpre
      apply hp
      rw [List.isPrefixOf_iff_prefix]
      refine hpre.trans ⟨b :: post, by simp⟩

/-! The marks of a tag -/

theorem marks_append (inner : List UInt8) : (marks inner).1 ++ (marks inner).2 = inner := by
  unfold marks
  split <;> simp

theorem untrim_append (r : List UInt8) : (untrim r).1 ++ (untrim r).2 = r := by
  unfold untrim
  split
  · rename_i h
    obtain ⟨x, rfl⟩ := List.getLast?_eq_some_iff.mp h
    simp
  · simp

theorem getElem?_at (x y : List UInt8) (k : Nat) : (x ++ y)[x.length + k]? = y[k]? := by
  rw [List.getElem?_append_right (by omega)]
  congr 1; omega

theorem bodyStart_eq (x inner y : List UInt8) :
    bodyStart (x ++ [0x3C, 0x25] ++ inner ++ 0x25 :: y) x.length = x.length + 2 + (marks inner).1.length := by
  have hget : ∀ k, (x ++ [0x3C, 0x25] ++ inner ++ 0x25 :: y)[x.length + 2 + k]? = (inner ++ 0x25 :: y)[k]? := by
    intro k
    have h2 : (x ++ [0x3C, 0x25]).length = x.length + 2 := by simp
    rw [List.append_assoc (x ++ [0x3C, 0x25]), ← h2, getElem?_at]
  have hget0 := hget 0
  have hget1 := hget 1
  simp only [Nat.add_zero] at hget0
  unfold marks
  split
  · rename_i r
    unfold bodyStart
    simp only [hget0]
    have h0 : ((0x2D :: 0x3D :: r ++ 0x25 :: y : List UInt8))[0]? = some 0x2D := rfl
    have h1 : ((0x2D :: 0x3D :: r ++ 0x25 :: y : List UInt8))[1]? = some 0x3D := rfl
    rw [h0, if_pos rfl, hget1, h1, if_pos rfl]
    rfl
  · rename_i r hr
    unfold bodyStart
    simp only [hget0]
    have : (r ++ 0x25 :: y)[0]? ≠ some 0x3D := by
      cases r with
      | nil => simp
      | cons c r =>
        intro h
        simp at h
        exact hr r (by rw [h])
    have h0 : ((0x2D :: r ++ 0x25 :: y : List UInt8))[0]? = some 0x2D := rfl
    have h1 : ((0x2D :: r ++ 0x25 :: y : List UInt8))[1]? = (r ++ 0x25 :: y)[0]? := rfl
    rw [h0, if_pos rfl, hget1, h1, if_neg this]
    rfl
  · rename_i r
    unfold bodyStart
    simp only [hget0]
    have h0 : ((0x3D :: r ++ 0x25 :: y : List UInt8))[0]? = some 0x3D := rfl
    have h1 : (if (some 0x3D : Option UInt8) = some 0x2D then x.length + 2 + 1 else x.length + 2) = x.length + 2 := if_neg (by decide)
    rw [h0, h1, hget0, h0, if_pos rfl]
    rfl
  · rename_i h1 h2 h3
    have ha : (inner ++ 0x25 :: y)[0]? ≠ some 0x2D := by
      cases inner with
      | nil => simp
      | cons c r => intro h; simp at h; exact h2 r (by rw [h])
    have hb : (inner ++ 0x25 :: y)[0]? ≠ some 0x3D := by
      cases inner with
      | nil => simp
      | cons c r => intro h; simp at h; exact h3 r (by rw [h])
    unfold bodyStart
    simp only [hget0]
    rw [if_neg ha, hget0, if_neg hb]
    rfl

theorem bodyEnd_eq (x lead rest y : List UInt8) :
    bodyEnd (x ++ lead ++ rest ++ y) (x.length + lead.length) (x.length + lead.length + rest.length) =
      x.length + lead.length + (untrim rest).1.length := by
  unfold bodyEnd untrim
  rcases List.eq_nil_or_concat rest with rfl | ⟨r, c, rfl⟩
  · simp
  · rw [List.concat_eq_append]
    have : (x ++ lead ++ (r ++ [c]) ++ y)[x.length + lead.length + (r ++ [c]).length - 1]? = some c := by
      have h1 : x.length + lead.length + (r ++ [c]).length - 1 = (x ++ lead ++ r).length + 0 := by simp; omega
      have h2 : x ++ lead ++ (r ++ [c]) ++ y = (x ++ lead ++ r) ++ (c :: y) := by simp
      rw [h1, h2, getElem?_at]; rfl
    rw [this]
    by_cases hc : c = 0x2D
    · subst hc
      rw [if_pos (by simp)]
      simp
    · rw [if_neg (by simp [hc])]
      simp [hc]

/-! What the loop produces -/

/-- `Tags` together with the masked bytes. -/
inductive Masks : Nat → List UInt8 → List UInt8 → List (Nat × Nat) → Option Nat → Prop
  | text {off bytes} (h : ¬ [0x3C, 0x25] <:+: bytes) : Masks off bytes (bytes.map blank) [] none
  | unclosed {off pre rest} (hopen : ¬ [0x3C, 0x25] <:+: pre ++ [0x3C]) (hclose : ¬ [0x25, 0x3E] <:+: rest.drop 1) :
      Masks off (pre ++ [0x3C, 0x25] ++ rest) ((pre ++ [0x3C, 0x25] ++ rest).map blank) [] (some (off + pre.length))
  | silent {off pre first inner post ranges u out} (hopen : ¬ [0x3C, 0x25] <:+: pre ++ [0x3C]) (hclose : ¬ [0x25, 0x3E] <:+: inner ++ [0x25])
      (hno : ruby (first :: inner) = none)
      (hrest : Masks (off + pre.length + 2 + (first :: inner).length + 2) post out ranges u) :
      Masks off (pre ++ [0x3C, 0x25] ++ first :: inner ++ [0x25, 0x3E] ++ post)
        ((pre ++ [0x3C, 0x25] ++ first :: inner ++ [0x25, 0x3E]).map blank ++ out) ranges u
  | code {off pre first inner post ranges u lead body trail out} (hopen : ¬ [0x3C, 0x25] <:+: pre ++ [0x3C])
      (hclose : ¬ [0x25, 0x3E] <:+: inner ++ [0x25]) (hyes : ruby (first :: inner) = some (lead, body, trail))
      (hrest : Masks (off + pre.length + 2 + (first :: inner).length + 2) post out ranges u) :
      Masks off (pre ++ [0x3C, 0x25] ++ first :: inner ++ [0x25, 0x3E] ++ post)
        ((pre ++ [0x3C, 0x25] ++ lead).map blank ++ body ++ trail.map blank ++ [0x3B, 0x20] ++ out)
        ((off + pre.length + 2 + lead.length, off + pre.length + 2 + lead.length + body.length) :: ranges) u

theorem Masks.tags {off bytes out rs u} (h : Masks off bytes out rs u) : Tags off bytes rs u := by
  induction h with
  | text h => exact .text h
  | unclosed h1 h2 => exact .unclosed h1 h2
  | silent h1 h2 h3 _ ih => exact .silent h1 h2 h3 ih
  | code h1 h2 h3 _ ih => exact .code h1 h2 h3 ih

theorem ruby_some {inner lead body trail : List UInt8} (h : ruby inner = some (lead, body, trail)) :
    inner = lead ++ body ++ trail ∧ body ≠ [] ∧ (∀ b ∈ lead, b.toNat < 128) ∧ (∀ b ∈ trail, b.toNat < 128) ∧
      lead = (marks inner).1 ∧ body = (untrim (marks inner).2).1 ∧ trail = (untrim (marks inner).2).2 := by
  unfold ruby at h
  split at h
  · cases h
  · simp only at h
    split at h
    · cases h
    · rename_i hb
      simp only [Option.some.injEq, Prod.mk.injEq] at h
      obtain ⟨rfl, rfl, rfl⟩ := h
      refine ⟨?_, hb, ?_, ?_, rfl, rfl, rfl⟩
      · rw [List.append_assoc, untrim_append, marks_append]
      · unfold marks
        split <;> simp
      · unfold untrim
        split <;> simp

theorem copySlice_eq (m1 m2 m3 b1 b2 b3 : List UInt8) (h1 : m1.length = b1.length) (h2 : m2.length = b2.length) :
    copySlice (m1 ++ m2 ++ m3) (b1 ++ b2 ++ b3) b1.length (b1.length + b2.length) = some (m1 ++ b2 ++ m3) := by
  unfold copySlice
  rw [if_pos (by simp; omega)]
  have e1 : (m1 ++ m2 ++ m3).take b1.length = m1 := by
    rw [List.append_assoc, ← h1, List.take_left]
  have e2 : (m1 ++ m2 ++ m3).drop (b1.length + b2.length) = m3 := by
    have : b1.length + b2.length = (m1 ++ m2).length := by simp; omega
    rw [this, List.drop_left]
  have e3 : (b1 ++ b2 ++ b3).drop b1.length = b2 ++ b3 := by rw [List.append_assoc, List.drop_left]
  have e4 : b1.length + b2.length - b1.length = b2.length := by omega
  rw [e1, e2, e3, e4, List.take_left]

theorem setByte_eq (m1 m2 : List UInt8) (c x : UInt8) : setByte (m1 ++ c :: m2) m1.length x = some (m1 ++ x :: m2) := by
  unfold setByte
  rw [if_pos (by simp)]
  simp

theorem maskLoop_spec (n : Nat) (done rem mdone : List UInt8) (ranges : List (Nat × Nat)) (hn : rem.length ≤ n)
    (hm : mdone.length = done.length) :
    ∃ out rs u, maskLoop (done ++ rem) done.length (mdone ++ rem.map blank) ranges = some (mdone ++ out, ranges ++ rs, u) ∧
      Masks done.length rem out rs u := by
  induction n generalizing done rem mdone ranges with
  | zero =>
    have : rem = [] := List.eq_nil_of_length_eq_zero (by omega)
    subst this
    refine ⟨[], [], none, ?_, .text (by simp)⟩
    rw [maskLoop, if_neg (by simp)]
    split
    · simp
    · rename_i hf
      have := findBytes_lt hf
      simp at this
  | succ n ih =>
    rw [maskLoop, if_neg (by simp), ]
    have hd : (done ++ rem).drop done.length = rem := List.drop_left
    split
    · rename_i hf
      rw [hd] at hf
      exact ⟨rem.map blank, [], none, by simp, .text (find_none hf)⟩
    · rename_i ro hf
      rw [hd] at hf
      simp only
      obtain ⟨pre, rest, rfl, rfl, hopen⟩ := find_some hf
      have hss : min (done.length + pre.length + 3) (done ++ (pre ++ [0x3C, 0x25] ++ rest)).length =
          (done ++ (pre ++ [0x3C, 0x25])).length + min 1 rest.length := by simp; omega
      have hdr : (done ++ (pre ++ [0x3C, 0x25] ++ rest)).drop ((done ++ (pre ++ [0x3C, 0x25])).length + min 1 rest.length) = rest.drop 1 := by
        have e : done ++ (pre ++ [0x3C, 0x25] ++ rest) = (done ++ (pre ++ [0x3C, 0x25])) ++ rest := by simp
        rw [e, List.drop_length_add_append]
        cases rest with
        | nil => simp
        | cons c r => simp
      rw [hss, hdr]
      split
      · rename_i hc
        exact ⟨_, [], _, by simp, .unclosed hopen (find_none hc)⟩
      · rename_i rc hc
        obtain ⟨inner, post, hrest, rfl, hclose⟩ := find_some hc
        cases rest with
        | nil => simp at hrest
        | cons first rest =>
        simp only [List.drop_succ_cons, List.drop_zero] at hrest
        subst hrest
        have hmark : (done ++ (pre ++ [0x3C, 0x25] ++ first :: (inner ++ [0x25, 0x3E] ++ post)))[done.length + pre.length + 2]? = some first := by
          have e : done ++ (pre ++ [0x3C, 0x25] ++ first :: (inner ++ [0x25, 0x3E] ++ post)) =
            (done ++ pre ++ [0x3C, 0x25]) ++ (first :: (inner ++ [0x25, 0x3E] ++ post)) := by simp
          have e2 : done.length + pre.length + 2 = (done ++ pre ++ [0x3C, 0x25]).length + 0 := by simp; omega
          rw [e, e2, getElem?_at]; rfl
        have hcl : (done ++ (pre ++ [0x3C, 0x25])).length + min 1 (first :: (inner ++ [0x25, 0x3E] ++ post)).length + inner.length =
            done.length + pre.length + 2 + (first :: inner).length := by simp; omega
        rw [hmark, hcl]
        -- the recursive call
        have hrec : ∀ (mid : List UInt8) (rg : List (Nat × Nat)), mid.length = pre.length + 2 + (first :: inner).length + 2 →
            ∃ out rs u, maskLoop (done ++ (pre ++ [0x3C, 0x25] ++ first :: (inner ++ [0x25, 0x3E] ++ post)))
              (done.length + pre.length + 2 + (first :: inner).length + 2) (mdone ++ mid ++ post.map blank) rg =
              some (mdone ++ mid ++ out, rg ++ rs, u) ∧ Masks (done.length + pre.length + 2 + (first :: inner).length + 2) post out rs u := by
          intro mid rg hmid
          have := ih (done ++ (pre ++ [0x3C, 0x25] ++ first :: (inner ++ [0x25, 0x3E]))) post (mdone ++ mid) rg
            (by simp at hn ⊢; omega) (by simp at hmid ⊢; omega)
          have e1 : (done ++ (pre ++ [0x3C, 0x25] ++ first :: (inner ++ [0x25, 0x3E]))).length =
            done.length + pre.length + 2 + (first :: inner).length + 2 := by simp; omega
          have e2 : (done ++ (pre ++ [0x3C, 0x25] ++ first :: (inner ++ [0x25, 0x3E]))) ++ post =
            done ++ (pre ++ [0x3C, 0x25] ++ first :: (inner ++ [0x25, 0x3E] ++ post)) := by simp
          rw [e1, e2] at this
          exact this
        have eform : pre ++ [0x3C, 0x25] ++ first :: inner ++ [0x25, 0x3E] ++ post =
          pre ++ [0x3C, 0x25] ++ first :: (inner ++ [0x25, 0x3E] ++ post) := by simp
        have hsilent : ruby (first :: inner) = none → ∃ out rs u,
            maskLoop (done ++ (pre ++ [0x3C, 0x25] ++ first :: (inner ++ [0x25, 0x3E] ++ post)))
              (done.length + pre.length + 2 + (first :: inner).length + 2)
              (mdone ++ (pre ++ [0x3C, 0x25] ++ first :: (inner ++ [0x25, 0x3E] ++ post)).map blank) ranges =
                some (mdone ++ out, ranges ++ rs, u) ∧
              Masks done.length (pre ++ [0x3C, 0x25] ++ first :: (inner ++ [0x25, 0x3E] ++ post)) out rs u := by
          intro hno
          obtain ⟨out, rs, u, h1, h2⟩ := hrec ((pre ++ [0x3C, 0x25] ++ first :: inner ++ [0x25, 0x3E]).map blank) ranges (by simp; omega)
          have := Masks.silent hopen hclose hno h2
          rw [eform] at this
          refine ⟨_, rs, u, ?_, this⟩
          rw [← eform, List.map_append, ← List.append_assoc mdone, eform, h1]
          simp
        split
        · rename_i hmk
          apply hsilent
          unfold ruby
          rw [if_pos (by simpa using hmk)]
        · rename_i hmk
          have hbs : bodyStart (done ++ (pre ++ [0x3C, 0x25] ++ first :: (inner ++ [0x25, 0x3E] ++ post))) (done.length + pre.length) =
              done.length + pre.length + 2 + (marks (first :: inner)).1.length := by
            have := bodyStart_eq (done ++ pre) (first :: inner) (0x3E :: post)
            simp only [List.length_append] at this
            rw [← this]; simp
          have hin := marks_append (first :: inner)
          have hun := untrim_append (marks (first :: inner)).2
          have hlen : (first :: inner).length = (marks (first :: inner)).1.length + (marks (first :: inner)).2.length := by
            rw [← List.length_append, hin]
          have hbe : bodyEnd (done ++ (pre ++ [0x3C, 0x25] ++ first :: (inner ++ [0x25, 0x3E] ++ post)))
              (done.length + pre.length + 2 + (marks (first :: inner)).1.length) (done.length + pre.length + 2 + (first :: inner).length) =
              done.length + pre.length + 2 + (marks (first :: inner)).1.length + (untrim (marks (first :: inner)).2).1.length := by
            have := bodyEnd_eq (done ++ pre ++ [0x3C, 0x25]) (marks (first :: inner)).1 (marks (first :: inner)).2 ([0x25, 0x3E] ++ post)
            rw [List.append_assoc (done ++ pre ++ [0x3C, 0x25]), hin] at this
            have e1 : (done ++ pre ++ [0x3C, 0x25]).length = done.length + pre.length + 2 := by simp; omega
            rw [e1] at this
            rw [← this, hlen]
            have : done.length + pre.length + 2 + (marks (first :: inner)).1.length + (marks (first :: inner)).2.length =
              done.length + pre.length + 2 + ((marks (first :: inner)).1.length + (marks (first :: inner)).2.length) := by omega
            rw [this]; simp
          rw [hbs, hbe]
          split
          · rename_i hge
            apply hsilent
            unfold ruby
            rw [if_neg (by simpa using hmk)]
            simp only
            rw [if_pos (List.eq_nil_of_length_eq_zero (by omega))]
          · rename_i hlt
            generalize hlead : (marks (first :: inner)).1 = lead at *
            generalize hrest : (marks (first :: inner)).2 = rest at *
            generalize hbody : (untrim rest).1 = body at *
            generalize htrail : (untrim rest).2 = trail at *
            have hyes : ruby (first :: inner) = some (lead, body, trail) := by
              unfold ruby
              rw [if_neg (by simpa using hmk)]
              simp only [hlead, hrest, hbody, htrail]
              rw [if_neg]
              rintro rfl
              simp at hlt
            -- the two writes
            have hb0 : done ++ (pre ++ [0x3C, 0x25] ++ first :: (inner ++ [0x25, 0x3E] ++ post)) =
                (done ++ (pre ++ [0x3C, 0x25] ++ lead)) ++ body ++ (trail ++ [0x25, 0x3E] ++ post) := by
              have : first :: (inner ++ [0x25, 0x3E] ++ post) = (first :: inner) ++ ([0x25, 0x3E] ++ post) := by simp
              rw [this, ← hin, ← hun]; simp
            have hm0 : mdone ++ (pre ++ [0x3C, 0x25] ++ first :: (inner ++ [0x25, 0x3E] ++ post)).map blank =
                (mdone ++ (pre ++ [0x3C, 0x25] ++ lead).map blank) ++ body.map blank ++ (trail ++ [0x25, 0x3E] ++ post).map blank := by
              have : first :: (inner ++ [0x25, 0x3E] ++ post) = (first :: inner) ++ ([0x25, 0x3E] ++ post) := by simp
              rw [this, ← hin, ← hun]; simp
            have hs0 : done.length + pre.length + 2 + lead.length = (done ++ (pre ++ [0x3C, 0x25] ++ lead)).length := by simp; omega
            have hcopy := copySlice_eq (mdone ++ (pre ++ [0x3C, 0x25] ++ lead).map blank) (body.map blank)
              ((trail ++ [0x25, 0x3E] ++ post).map blank) (done ++ (pre ++ [0x3C, 0x25] ++ lead)) body (trail ++ [0x25, 0x3E] ++ post)
              (by simp [hm]) (by simp)
            rw [hm0, hb0, hs0, hcopy]
            have hset := setByte_eq (mdone ++ (pre ++ [0x3C, 0x25] ++ lead).map blank ++ body ++ trail.map blank) ([0x20] ++ post.map blank) (blank 0x25) 0x3B
            have hcl2 : done.length + pre.length + 2 + (first :: inner).length =
                (mdone ++ (pre ++ [0x3C, 0x25] ++ lead).map blank ++ body ++ trail.map blank).length := by
              rw [hlen, ← hun]; simp [hm]; omega
            have hm1 : mdone ++ (pre ++ [0x3C, 0x25] ++ lead).map blank ++ body ++ (trail ++ [0x25, 0x3E] ++ post).map blank =
              mdone ++ (pre ++ [0x3C, 0x25] ++ lead).map blank ++ body ++ trail.map blank ++ blank 0x25 :: ([0x20] ++ post.map blank) := by
              simp; rfl
            rw [Option.bind_some, hm1, hcl2, hset]
            simp only
            rw [← hb0, ← hs0, ← hcl2]
            obtain ⟨out, rs, u, h1, h2⟩ := hrec ((pre ++ [0x3C, 0x25] ++ lead).map blank ++ body ++ trail.map blank ++ [0x3B, 0x20])
              (ranges ++ [(done.length + pre.length + 2 + lead.length, done.length + pre.length + 2 + lead.length + body.length)])
              (by rw [hlen, ← hun]; simp; omega)
            have := Masks.code hopen hclose hyes h2
            rw [eform] at this
            refine ⟨_, _, u, ?_, this⟩
            have e : mdone ++ (pre ++ [0x3C, 0x25] ++ lead).map blank ++ body ++ trail.map blank ++ 0x3B :: ([0x20] ++ post.map blank) =
              mdone ++ ((pre ++ [0x3C, 0x25] ++ lead).map blank ++ body ++ trail.map blank ++ [0x3B, 0x20]) ++ post.map blank := by simp
            rw [e, h1]
            simp

theorem blank_ascii (b : UInt8) : (blank b).toNat < 128 := by
  unfold blank
  split
  · rename_i h
    simp only [Bool.or_eq_true, decide_eq_true_eq] at h
    rcases h with rfl | rfl <;> decide
  · decide

theorem Masks.length {off bytes out rs u} (h : Masks off bytes out rs u) : out.length = bytes.length := by
  induction h with
  | text h => simp
  | unclosed h1 h2 => simp
  | silent h1 h2 h3 _ ih => simp [ih]
  | code h1 h2 h3 _ ih =>
    have := congrArg List.length (ruby_some h3).1
    simp [ih] at this ⊢
    omega

theorem valid_map_blank (l : List UInt8) : ValidUtf8 (l.map blank) := by
  apply validUtf8_ascii
  intro b hb
  obtain ⟨c, -, rfl⟩ := List.mem_map.mp hb
  exact blank_ascii c

/-- A valid byte string split at an ASCII byte, on either side of it. -/
theorem valid_around {p q : List UInt8} {b : UInt8} (h : ValidUtf8 (p ++ b :: q)) (hb : b.toNat < 128) : ValidUtf8 p ∧ ValidUtf8 q := by
  have h1 := (validUtf8_split h (boundary_at_ascii hb)).1
  refine ⟨h1, ?_⟩
  have h2 : ValidUtf8 ((p ++ [b]) ++ q) := by simpa using h
  exact (validUtf8_split h2 (boundary_after_ascii h hb)).2

theorem Masks.valid {off bytes out rs u} (h : Masks off bytes out rs u) (hv : ValidUtf8 bytes) : ValidUtf8 out := by
  induction h with
  | text h => exact valid_map_blank _
  | unclosed h1 h2 => exact valid_map_blank _
  | @silent off pre first inner post ranges u out h1 h2 h3 _ ih =>
    apply validUtf8_append (valid_map_blank _)
    apply ih
    have e : pre ++ [0x3C, 0x25] ++ first :: inner ++ [0x25, 0x3E] ++ post = (pre ++ [0x3C, 0x25] ++ first :: inner ++ [0x25]) ++ 0x3E :: post := by simp
    rw [e] at hv
    exact (valid_around hv (by decide)).2
  | @code off pre first inner post ranges u lead body trail out h1 h2 h3 _ ih =>
    obtain ⟨he, hb, hl, ht, -⟩ := ruby_some h3
    have hpost : ValidUtf8 post := by
      have e : pre ++ [0x3C, 0x25] ++ first :: inner ++ [0x25, 0x3E] ++ post = (pre ++ [0x3C, 0x25] ++ first :: inner ++ [0x25]) ++ 0x3E :: post := by simp
      rw [e] at hv
      exact (valid_around hv (by decide)).2
    have hbody : ValidUtf8 body := by
      have hin : ValidUtf8 (first :: inner) := by
        have e : pre ++ [0x3C, 0x25] ++ first :: inner ++ [0x25, 0x3E] ++ post = (pre ++ [0x3C]) ++ 0x25 :: (first :: inner ++ [0x25, 0x3E] ++ post) := by simp
        rw [e] at hv
        have h1 := (valid_around hv (by decide)).2
        have e : first :: inner ++ [0x25, 0x3E] ++ post = (first :: inner) ++ 0x25 :: ([0x3E] ++ post) := by simp
        rw [e] at h1
        exact (valid_around h1 (by decide)).1
      rw [he] at hin
      have hlb : ValidUtf8 (lead ++ body) := by
        cases trail with
        | nil => simpa using hin
        | cons c t =>
          exact (valid_around hin (ht c (by simp))).1
      rcases List.eq_nil_or_concat lead with rfl | ⟨l, c, rfl⟩
      · simpa using hlb
      · have e : l ++ [c] ++ body = l ++ c :: body := by simp
        rw [List.concat_eq_append] at hlb hl
        rw [e] at hlb
        exact (valid_around hlb (hl c (by simp))).2
    exact validUtf8_append (validUtf8_append (validUtf8_append (validUtf8_append (valid_map_blank _) hbody) (valid_map_blank _))
      (validUtf8_ascii (by decide))) (ih hpost)

/-- All ranges are inside, non-empty, ordered and apart. -/
theorem Masks.ranges {off bytes out rs u} (h : Masks off bytes out rs u) :
    (∀ r ∈ rs, off + 2 ≤ r.1 ∧ r.1 < r.2 ∧ r.2 + 2 ≤ off + bytes.length) ∧ rs.Pairwise (fun a b => a.2 < b.1) := by
  induction h with
  | text h => simp
  | unclosed h1 h2 => simp
  | silent h1 h2 h3 _ ih =>
    refine ⟨?_, ih.2⟩
    intro r hr
    have := ih.1 r hr
    simp at this ⊢
    omega
  | code h1 h2 h3 _ ih =>
    obtain ⟨he, hb, -⟩ := ruby_some h3
    have hl := congrArg List.length he
    have hb' := List.length_pos_iff.mpr hb
    simp at hl
    refine ⟨?_, ?_⟩
    · intro r hr
      rcases List.mem_cons.mp hr with rfl | hr
      · simp; omega
      · have := ih.1 r hr
        simp at this ⊢
        omega
    · refine List.pairwise_cons.mpr ⟨?_, ih.2⟩
      intro r hr
      have := (ih.1 r hr).1
      simp at this ⊢
      omega

end Verif.Erb
