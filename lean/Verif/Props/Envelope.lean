import Verif.Model.Envelope
import Verif.Lemmas.Bytes
import Mathlib.Tactic.Common
/-!
C25, C26: the file formats of the persistent cache.
-/
namespace Verif.Envelope
open Verif.Bytes

/-- What is assumed of the digest: 32 bytes. -/
def Codec.Digest (C : Codec) : Prop := ∀ p, (C.sha p).length = 32

/-- What is assumed of the compressor: decompressing gives back the bytes, without an error. -/
def Codec.Lossless (C : Codec) : Prop := ∀ p, C.stream (C.compress p) = (p, false)

/-- The envelope of payload `p` with compressed bytes `z`. -/
def envelope (C : Codec) (magic p z : List UInt8) : List UInt8 :=
  magic ++ (toLe 4 1 ++ (toLe 8 p.length ++ (toLe 8 z.length ++ (C.sha p ++ z))))

theorem envelope_length {C : Codec} (hd : C.Digest) {magic p z : List UInt8} (hm : magic.length = 8) :
    (envelope C magic p z).length = 60 + z.length := by
  simp only [envelope, List.length_append, toLe_length, hd p, hm]; omega

/-- The fields of an envelope. -/
theorem envelope_fields {a b c d e z : List UInt8} (ha : a.length = 8) (hb : b.length = 4) (hc : c.length = 8) (hd : d.length = 8)
    (he : e.length = 32) :
    let f := a ++ (b ++ (c ++ (d ++ (e ++ z))))
    slice f 0 8 = a ∧ slice f 8 12 = b ∧ slice f 12 20 = c ∧ slice f 20 28 = d ∧ slice f 28 60 = e ∧ f.drop 60 = z ∧
    f.length = 60 + z.length := by
  refine ⟨?_, ?_, ?_, ?_, ?_, ?_, ?_⟩
  · exact slice_append (a := []) rfl (by omega)
  · exact slice_append ha (by omega)
  · rw [show a ++ (b ++ (c ++ (d ++ (e ++ z)))) = (a ++ b) ++ (c ++ (d ++ (e ++ z))) by simp]
    exact slice_append (by simp only [List.length_append]; omega) (by omega)
  · rw [show a ++ (b ++ (c ++ (d ++ (e ++ z)))) = (a ++ b ++ c) ++ (d ++ (e ++ z)) by simp]
    exact slice_append (by simp only [List.length_append]; omega) (by omega)
  · rw [show a ++ (b ++ (c ++ (d ++ (e ++ z)))) = (a ++ b ++ c ++ d) ++ (e ++ z) by simp]
    exact slice_append (by simp only [List.length_append]; omega) (by omega)
  · rw [show a ++ (b ++ (c ++ (d ++ (e ++ z)))) = (a ++ b ++ c ++ d ++ e) ++ z by simp]
    exact List.drop_left' (by simp only [List.length_append]; omega)
  · simp only [List.length_append]; omega

theorem cut_envelope {f : List UInt8} (h : 60 ≤ f.length) :
    ∃ a b c d e z, f = a ++ (b ++ (c ++ (d ++ (e ++ z)))) ∧ a.length = 8 ∧ b.length = 4 ∧ c.length = 8 ∧ d.length = 8 ∧ e.length = 32 := by
  obtain ⟨a, f1, rfl, ha⟩ := cut f 8 (by omega)
  simp only [List.length_append] at h
  obtain ⟨b, f2, rfl, hb⟩ := cut f1 4 (by omega)
  simp only [List.length_append] at h
  obtain ⟨c, f3, rfl, hc⟩ := cut f2 8 (by omega)
  simp only [List.length_append] at h
  obtain ⟨d, f4, rfl, hd⟩ := cut f3 8 (by omega)
  simp only [List.length_append] at h
  obtain ⟨e, z, rfl, he⟩ := cut f4 32 (by omega)
  exact ⟨a, b, c, d, e, z, rfl, ha, hb, hc, hd, he⟩

theorem readLimited_exact {s : List UInt8 × Bool} {n : Nat} {p : List UInt8} (hl : p.length = n) :
    readLimited s (n + 1) = some p ↔ s = (p, false) := by
  obtain ⟨bs, err⟩ := s
  unfold readLimited
  dsimp only
  constructor
  · intro h
    split at h
    · cases h
      rw [List.length_take] at hl
      omega
    · split at h
      · cases h
      · rename_i he
        cases h
        cases err
        · rfl
        · exact absurd rfl he
  · intro h
    cases h
    rw [if_neg (by omega)]
    rfl

/-- C25: a file is accepted exactly when it is an envelope of the payload returned: the magic, the schema, both lengths, the digest
and the compressed bytes, and nothing else. -/
theorem c25_accepted_iff {C : Codec} (hd : C.Digest) {magic : List UInt8} (hm : magic.length = 8) (maxLogical : Nat) (f p : List UInt8) :
    decode C magic maxLogical f = some p ↔
      ∃ z, f = envelope C magic p z ∧ C.stream z = (p, false) ∧ p.length ≤ maxLogical ∧ p.length + 1 < 2 ^ 64 ∧
        z.length ≤ 256 * 1024 * 1024 := by
  constructor
  · intro h
    unfold decode at h
    split at h; · cases h
    rename_i h0
    have h0 : 60 ≤ f.length := by simp only [headerBytes] at h0; omega
    obtain ⟨a, b, c, d, e, z, rfl, ha, hb, hc, hd', he⟩ := cut_envelope h0
    obtain ⟨s1, s2, s3, s4, s5, s6, s7⟩ := envelope_fields (z := z) ha hb hc hd' he
    split at h; · cases h
    rename_i h1
    split at h; · cases h
    rename_i h2
    split at h; · cases h
    rename_i logical hlog
    have hlog' : logical = fromLe c := by
      unfold logicalLen at hlog
      rw [s3] at hlog
      split at hlog
      · cases hlog
      · cases hlog; rfl
    simp only [show headerBytes = 60 from rfl, s4, s5, s6, s7] at h
    split at h; · cases h
    rename_i h3
    split at h; · cases h
    rename_i h4
    split at h; · cases h
    split at h; · cases h
    rename_i h5
    split at h; · cases h
    rename_i h6
    split at h; · cases h
    rename_i payload hr
    split at h; · cases h
    rename_i h7
    split at h; · cases h
    rename_i h8
    cases h
    have h7 := Classical.not_not.mp h7
    have h8 := Classical.not_not.mp h8
    have h5 := Classical.not_not.mp h5
    have h1 : a = magic := by rw [s1] at h1; exact Classical.not_not.mp h1
    have h2 : fromLe b = 1 := by rw [s2] at h2; exact Classical.not_not.mp h2
    refine ⟨z, ?_, (readLimited_exact h7).mp hr, by omega, ?_, ?_⟩
    · have e1 : toLe 4 1 = b := by rw [← toLe_fromLe b, hb, h2]
      have e2 : toLe 8 p.length = c := by rw [h7, hlog', ← hc, toLe_fromLe c]
      have e3 : toLe 8 z.length = d := by rw [show z.length = fromLe d by omega, ← hd', toLe_fromLe d]
      rw [envelope, e1, e2, e3, h1, h8]
    · simp only [u64Max] at h6; omega
    · simp only [maxCompressed] at h4; omega
  · rintro ⟨z, rfl, hs, h1, h2, h3⟩
    have h2' : p.length < 256 ^ 8 := by omega
    have h3' : z.length < 256 ^ 8 := by omega
    obtain ⟨s1, s2, s3, s4, s5, s6, s7⟩ :=
      envelope_fields (a := magic) (b := toLe 4 1) (c := toLe 8 p.length) (d := toLe 8 z.length) (e := C.sha p) (z := z) hm
        (toLe_length _ _) (toLe_length _ _) (toLe_length _ _) (hd p)
    have hf : envelope C magic p z = magic ++ (toLe 4 1 ++ (toLe 8 p.length ++ (toLe 8 z.length ++ (C.sha p ++ z)))) := rfl
    have hlog : logicalLen (envelope C magic p z) = some p.length := by
      unfold logicalLen
      rw [if_neg (by rw [hf, s7]; omega), hf, s3, fromLe_toLe h2']
    unfold decode
    rw [if_neg (by rw [hf, s7]; simp only [headerBytes]; omega), if_neg (by rw [hf, s1]; simp),
      if_neg (by rw [hf, s2]; decide), hlog]
    dsimp only
    rw [show slice (envelope C magic p z) 20 28 = toLe 8 z.length by rw [hf]; exact s4, fromLe_toLe h3', if_neg (by omega),
      if_neg (by simp only [maxCompressed]; omega), if_neg (by simp only [headerBytes, u64Max]; omega),
      if_neg (by rw [hf, s7]; simp only [headerBytes]; omega), if_neg (by simp only [u64Max]; omega)]
    rw [show (envelope C magic p z).drop headerBytes = z by rw [hf]; exact s6, hs, (readLimited_exact rfl).mpr rfl]
    dsimp only
    rw [if_neg (by simp), if_neg (by rw [hf, s5]; simp)]

/-- C25: what is published is read back exactly. -/
theorem c25_round_trip {C : Codec} (hd : C.Digest) (hl : C.Lossless) (kind : Kind) (p e : List UInt8)
    (h : publishBytes C kind p = some e) : readProduct C kind e = some p := by
  have hm : kind.magic.length = 8 := by cases kind <;> rfl
  unfold publishBytes at h
  split at h; · cases h
  rename_i e' henc
  split at h; · cases h
  rename_i hle
  cases h
  unfold readProduct
  rw [if_neg hle]
  unfold encode at henc
  split at henc; · cases henc
  split at henc; · cases henc
  rename_i hmax
  simp only at henc
  split at henc; · cases henc
  cases henc
  have hml : kind.maxLogical ≤ 2 ^ 30 := by cases kind <;> decide
  have hlen : (envelope C kind.magic p (C.compress p)).length ≤ maxCompressed := Nat.le_of_not_lt hle
  rw [envelope_length hd hm, show maxCompressed = 256 * 1024 * 1024 from rfl] at hlen
  exact (c25_accepted_iff hd hm _ _ _).mpr ⟨C.compress p, rfl, hl p, by omega, by omega, by omega⟩

/-- C25: every payload that fits is published. -/
theorem c25_publishable {C : Codec} (hd : C.Digest) (kind : Kind) (p : List UInt8) :
    (∃ e, publishBytes C kind p = some e) ↔ p.length ≤ kind.maxLogical ∧ 60 + (C.compress p).length ≤ 256 * 1024 * 1024 := by
  have hm : kind.magic.length = 8 := by cases kind <;> rfl
  have hml : kind.maxLogical ≤ 2 ^ 30 := by cases kind <;> decide
  have hlen := envelope_length (C := C) hd (p := p) (z := C.compress p) hm
  constructor
  · rintro ⟨e, h⟩
    unfold publishBytes at h
    split at h; · cases h
    rename_i e' henc
    split at h; · cases h
    rename_i hle
    unfold encode at henc
    split at henc; · cases henc
    split at henc; · cases henc
    simp only at henc
    split at henc; · cases henc
    cases henc
    have : (envelope C kind.magic p (C.compress p)).length ≤ maxCompressed := Nat.le_of_not_lt hle
    rw [hlen, show maxCompressed = 256 * 1024 * 1024 from rfl] at this
    exact ⟨by omega, this⟩
  · rintro ⟨h1, h2⟩
    refine ⟨envelope C kind.magic p (C.compress p), ?_⟩
    unfold publishBytes encode
    rw [if_neg (by simp only [u64Max]; omega), if_neg (by omega)]
    simp only
    rw [if_neg (by simp only [headerBytes, u64Max]; omega)]
    simp only
    rw [if_neg]
    · rfl
    · show ¬ (envelope C kind.magic p (C.compress p)).length > maxCompressed
      rw [hlen, show maxCompressed = 256 * 1024 * 1024 from rfl]
      omega

/-- The length of an accepted file is in its bytes 20 to 28. -/
theorem accepted_length {C : Codec} {magic : List UInt8} {mx : Nat} {f p : List UInt8} (h : decode C magic mx f = some p) :
    60 ≤ f.length ∧ f.length = 60 + fromLe (slice f 20 28) := by
  unfold decode at h
  split at h; · cases h
  rename_i h0
  split at h; · cases h
  split at h; · cases h
  split at h; · cases h
  simp only at h
  split at h; · cases h
  split at h; · cases h
  split at h; · cases h
  split at h; · cases h
  rename_i h5
  simp only [headerBytes] at h0 h5
  exact ⟨by omega, Classical.not_not.mp h5⟩

theorem slice_prefix {f x : List UInt8} {a b : Nat} (h : b ≤ f.length) (hab : a ≤ b) : slice (f ++ x) a b = slice f a b := by
  unfold slice
  rw [List.drop_append_of_le_length (by omega), List.take_append_of_le_length (by simp; omega)]

/-- C25: of a file and a proper prefix of it at most one is accepted, whatever magic and size limit they are read with. So every
truncation and every extension of an accepted file is rejected. -/
theorem c25_prefix_free {C : Codec} {m m' : List UInt8} {mx mx' : Nat} {f x p : List UInt8} (hx : x ≠ [])
    (h : decode C m mx f = some p) : decode C m' mx' (f ++ x) = none := by
  rw [← Option.not_isSome_iff_eq_none]
  intro hs
  obtain ⟨q, hq⟩ := Option.isSome_iff_exists.mp hs
  obtain ⟨h1, h2⟩ := accepted_length h
  obtain ⟨-, h3⟩ := accepted_length hq
  rw [slice_prefix (by omega) (by omega), List.length_append] at h3
  have := List.length_pos_iff.mpr hx
  omega

/-- C25: every truncation of a written file is rejected, at whatever byte the write was torn; so is every extension. -/
theorem c25_torn_rejected {C : Codec} (hd : C.Digest) (hl : C.Lossless) (kind kind' : Kind) {p e : List UInt8}
    (h : publishBytes C kind p = some e) :
    (∀ n < e.length, readProduct C kind' (e.take n) = none) ∧ ∀ x, x ≠ [] → readProduct C kind' (e ++ x) = none := by
  have hr := c25_round_trip hd hl kind p e h
  unfold readProduct at hr
  split at hr; · cases hr
  constructor
  · intro n hn
    unfold readProduct
    split
    · rfl
    · rw [← Option.not_isSome_iff_eq_none]
      intro hs
      obtain ⟨q, hq⟩ := Option.isSome_iff_exists.mp hs
      have := c25_prefix_free (m' := kind.magic) (mx' := kind.maxLogical) (x := e.drop n) (by simp; omega) hq
      rw [List.take_append_drop, hr] at this
      cases this
  · intro x hx
    unfold readProduct
    split
    · rfl
    · exact c25_prefix_free hx hr

/-- C25: the compressed bytes determine the rest of an accepted file: any other magic, schema, length or digest in front of them is
rejected. -/
theorem c25_header_determined {C : Codec} (hd : C.Digest) {magic : List UInt8} (hm : magic.length = 8) {mx mx' : Nat} {f f' p p' : List UInt8}
    (h : decode C magic mx f = some p) (h' : decode C magic mx' f' = some p') (hz : f.drop 60 = f'.drop 60) : f = f' ∧ p = p' := by
  obtain ⟨z, rfl, hs, -⟩ := (c25_accepted_iff hd hm _ _ _).mp h
  obtain ⟨z', rfl, hs', -⟩ := (c25_accepted_iff hd hm _ _ _).mp h'
  have h1 := (envelope_fields (a := magic) (b := toLe 4 1) (c := toLe 8 p.length) (d := toLe 8 z.length) (e := C.sha p) (z := z) hm
        (toLe_length _ _) (toLe_length _ _) (toLe_length _ _) (hd p)).2.2.2.2.2.1
  have h2 := (envelope_fields (a := magic) (b := toLe 4 1) (c := toLe 8 p'.length) (d := toLe 8 z'.length) (e := C.sha p') (z := z') hm
        (toLe_length _ _) (toLe_length _ _) (toLe_length _ _) (hd p')).2.2.2.2.2.1
  have : z = z' := h1.symm.trans (hz.trans h2)
  subst this
  rw [hs] at hs'
  cases hs'
  exact ⟨rfl, rfl⟩

/-- C25: a file of one kind of product is not accepted as another. -/
theorem c25_kinds_apart {C : Codec} (hd : C.Digest) {kind kind' : Kind} (hk : kind ≠ kind') {f p : List UInt8}
    (h : readProduct C kind f = some p) : readProduct C kind' f = none := by
  have hm : ∀ k : Kind, k.magic.length = 8 := by intro k; cases k <;> rfl
  have head : ∀ k q, readProduct C k f = some q → f.take 8 = k.magic := by
    intro k q hq
    unfold readProduct at hq
    split at hq; · cases hq
    obtain ⟨z, rfl, -⟩ := (c25_accepted_iff hd (hm k) _ _ _).mp hq
    rw [envelope]
    exact List.take_left' (hm k)
  rw [← Option.not_isSome_iff_eq_none]
  intro hs
  obtain ⟨q, hq⟩ := Option.isSome_iff_exists.mp hs
  have := (head kind p h).symm.trans (head kind' q hq)
  revert this
  cases kind <;> cases kind' <;> first | exact absurd rfl hk | decide

/-! ### compiled extensions -/

/-- The payload of artifact `a` under key `k`. -/
def wasmPayload (C : Codec) (k : Key) (a : List UInt8) : List UInt8 :=
  toLe 4 1 ++ (toLe 8 k.sourceLength ++ (k.sourceSha ++ (toLe 8 k.compiler ++ (toLe 8 a.length ++ (C.sha a ++ a)))))

/-- A key as the type system allows it: two `u64` and a digest. -/
def Key.Ok (k : Key) : Prop := k.sourceLength < 2 ^ 64 ∧ k.sourceSha.length = 32 ∧ k.compiler < 2 ^ 64

theorem wasm_fields {a b c d e g z : List UInt8} (ha : a.length = 4) (hb : b.length = 8) (hc : c.length = 32) (hd : d.length = 8)
    (he : e.length = 8) (hg : g.length = 32) :
    let f := a ++ (b ++ (c ++ (d ++ (e ++ (g ++ z)))))
    slice f 0 4 = a ∧ slice f 4 12 = b ∧ slice f 12 44 = c ∧ slice f 44 52 = d ∧ slice f 52 60 = e ∧ slice f 60 92 = g ∧
    f.drop 92 = z ∧ f.length = 92 + z.length := by
  refine ⟨?_, ?_, ?_, ?_, ?_, ?_, ?_, ?_⟩
  · exact slice_append (a := []) rfl (by omega)
  · exact slice_append ha (by omega)
  · rw [show a ++ (b ++ (c ++ (d ++ (e ++ (g ++ z))))) = (a ++ b) ++ (c ++ (d ++ (e ++ (g ++ z)))) by simp]
    exact slice_append (by simp only [List.length_append]; omega) (by omega)
  · rw [show a ++ (b ++ (c ++ (d ++ (e ++ (g ++ z))))) = (a ++ b ++ c) ++ (d ++ (e ++ (g ++ z))) by simp]
    exact slice_append (by simp only [List.length_append]; omega) (by omega)
  · rw [show a ++ (b ++ (c ++ (d ++ (e ++ (g ++ z))))) = (a ++ b ++ c ++ d) ++ (e ++ (g ++ z)) by simp]
    exact slice_append (by simp only [List.length_append]; omega) (by omega)
  · rw [show a ++ (b ++ (c ++ (d ++ (e ++ (g ++ z))))) = (a ++ b ++ c ++ d ++ e) ++ (g ++ z) by simp]
    exact slice_append (by simp only [List.length_append]; omega) (by omega)
  · rw [show a ++ (b ++ (c ++ (d ++ (e ++ (g ++ z))))) = (a ++ b ++ c ++ d ++ e ++ g) ++ z by simp]
    exact List.drop_left' (by simp only [List.length_append]; omega)
  · simp only [List.length_append]; omega

/-- C26: a payload is accepted under a key exactly when it is the payload of the artifact returned under that very key. -/
theorem c26_accepted_iff {C : Codec} (hd : C.Digest) {k : Key} (hk : k.Ok) (f a : List UInt8) :
    decodeWasm C k f = some a ↔ f = wasmPayload C k a ∧ 92 + a.length < 2 ^ 64 := by
  constructor
  · intro h
    unfold decodeWasm at h
    split at h; · cases h
    rename_i h0
    have h0 : 92 ≤ f.length := by simp only [wasmHeaderBytes] at h0; omega
    obtain ⟨a1, f1, rfl, l1⟩ := cut f 4 (by omega)
    simp only [List.length_append] at h0
    obtain ⟨a2, f2, rfl, l2⟩ := cut f1 8 (by omega)
    simp only [List.length_append] at h0
    obtain ⟨a3, f3, rfl, l3⟩ := cut f2 32 (by omega)
    simp only [List.length_append] at h0
    obtain ⟨a4, f4, rfl, l4⟩ := cut f3 8 (by omega)
    simp only [List.length_append] at h0
    obtain ⟨a5, f5, rfl, l5⟩ := cut f4 8 (by omega)
    simp only [List.length_append] at h0
    obtain ⟨a6, z, rfl, l6⟩ := cut f5 32 (by omega)
    obtain ⟨s1, s2, s3, s4, s5, s6, s7, s8⟩ := wasm_fields (z := z) l1 l2 l3 l4 l5 l6
    simp only [show wasmHeaderBytes = 92 from rfl, s1, s2, s3, s4, s5, s6, s7, s8] at h
    split at h; · cases h
    rename_i h1
    split at h; · cases h
    rename_i h2
    split at h; · cases h
    rename_i h3
    split at h; · cases h
    rename_i h4
    split at h; · cases h
    rename_i h5
    cases h
    have h1 : fromLe a1 = 1 := Classical.not_not.mp h1
    push Not at h2
    have h4 := Classical.not_not.mp h4
    have h5 := Classical.not_not.mp h5
    constructor
    · have e1 : toLe 4 1 = a1 := by rw [← toLe_fromLe a1, l1, h1]
      have e2 : toLe 8 k.sourceLength = a2 := by rw [← h2.1, ← l2, toLe_fromLe]
      have e4 : toLe 8 k.compiler = a4 := by rw [← h2.2.2, ← l4, toLe_fromLe]
      have e5 : toLe 8 a.length = a5 := by rw [show a.length = fromLe a5 by omega, ← l5, toLe_fromLe]
      rw [wasmPayload, e1, e2, e4, e5, h2.2.1, h5]
    · simp only [u64Max] at h3; omega
  · rintro ⟨rfl, hl⟩
    obtain ⟨k1, k2, k3⟩ := hk
    obtain ⟨s1, s2, s3, s4, s5, s6, s7, s8⟩ :=
      wasm_fields (a := toLe 4 1) (b := toLe 8 k.sourceLength) (c := k.sourceSha) (d := toLe 8 k.compiler) (e := toLe 8 a.length)
        (g := C.sha a) (z := a) (toLe_length _ _) (toLe_length _ _) k2 (toLe_length _ _) (toLe_length _ _) (hd a)
    have hf : wasmPayload C k a =
      toLe 4 1 ++ (toLe 8 k.sourceLength ++ (k.sourceSha ++ (toLe 8 k.compiler ++ (toLe 8 a.length ++ (C.sha a ++ a))))) := rfl
    unfold decodeWasm
    rw [hf]
    simp only [show wasmHeaderBytes = 92 from rfl, s1, s2, s3, s4, s5, s6, s7, s8]
    rw [if_neg (by omega), if_neg (by decide), fromLe_toLe (by omega : k.sourceLength < 256 ^ 8),
      fromLe_toLe (by omega : k.compiler < 256 ^ 8), fromLe_toLe (by omega : a.length < 256 ^ 8),
      if_neg (by simp), if_neg (by simp only [u64Max]; omega), if_neg (by simp), if_neg (by simp)]

/-- C26: decoding with the key used for encoding gives the artifact back. -/
theorem c26_round_trip {C : Codec} (hd : C.Digest) {k : Key} (hk : k.Ok) {a f : List UInt8} (h : encodeWasm C k a = some f) :
    decodeWasm C k f = some a := by
  unfold encodeWasm at h
  split at h; · cases h
  split at h; · cases h
  rename_i h1
  cases h
  rw [c26_accepted_iff hd hk]
  exact ⟨rfl, by simp only [wasmHeaderBytes, u64Max] at h1; omega⟩

/-- C26: no payload is accepted under two keys. -/
theorem c26_bound_to_key {C : Codec} (hd : C.Digest) {k k' : Key} (hk : k.Ok) (hk' : k'.Ok) (hne : k ≠ k') {f a : List UInt8}
    (h : decodeWasm C k f = some a) : decodeWasm C k' f = none := by
  rw [← Option.not_isSome_iff_eq_none]
  intro hs
  obtain ⟨a', h'⟩ := Option.isSome_iff_exists.mp hs
  obtain ⟨e, -⟩ := (c26_accepted_iff hd hk _ _).mp h
  obtain ⟨e', -⟩ := (c26_accepted_iff hd hk' _ _).mp h'
  apply hne
  rw [e] at e'
  unfold wasmPayload at e'
  obtain ⟨k1, k2, k3⟩ := hk
  obtain ⟨k1', k2', k3'⟩ := hk'
  have e' := (List.append_inj e' (by simp)).2
  obtain ⟨e1, e'⟩ := List.append_inj e' (by simp)
  obtain ⟨e2, e'⟩ := List.append_inj e' (by rw [k2, k2'])
  obtain ⟨e3, -⟩ := List.append_inj e' (by simp)
  have e1 := toLe_inj (by omega) (by omega) e1
  have e3 := toLe_inj (by omega) (by omega) e3
  cases k; cases k'
  simp_all

/-- C26: of a payload and a proper prefix of it at most one is accepted, under any two keys. -/
theorem c26_prefix_free {C : Codec} {k k' : Key} {f x a : List UInt8} (hx : x ≠ []) (h : decodeWasm C k f = some a) :
    decodeWasm C k' (f ++ x) = none := by
  have len : ∀ {k : Key} {f a : List UInt8}, decodeWasm C k f = some a → 92 ≤ f.length ∧ f.length = 92 + fromLe (slice f 52 60) := by
    intro k f a h
    unfold decodeWasm at h
    split at h; · cases h
    rename_i h0
    split at h; · cases h
    split at h; · cases h
    simp only at h
    split at h; · cases h
    split at h; · cases h
    rename_i h1
    simp only [wasmHeaderBytes] at h0 h1
    exact ⟨by omega, Classical.not_not.mp h1⟩
  rw [← Option.not_isSome_iff_eq_none]
  intro hs
  obtain ⟨q, hq⟩ := Option.isSome_iff_exists.mp hs
  obtain ⟨h1, h2⟩ := len h
  obtain ⟨-, h3⟩ := len hq
  rw [slice_prefix (by omega) (by omega), List.length_append] at h3
  have := List.length_pos_iff.mpr hx
  omega

/-- C26: the bytes hashed into the cache id determine the key, and every cache id is a valid name: 64 lower-case hexadecimal
digits. -/
theorem c26_key_identity {C : Codec} (hd : C.Digest) {k k' : Key} (hk : k.Ok) (hk' : k'.Ok) :
    (keyBytes k = keyBytes k' ↔ k = k') ∧ validId (cacheId C k) = true ∧
    (cacheId C k = cacheId C k' ↔ C.sha (keyBytes k) = C.sha (keyBytes k')) := by
  refine ⟨⟨?_, fun h => by rw [h]⟩, ?_, ⟨hex_inj, fun h => by simp only [cacheId, h]⟩⟩
  · intro e
    obtain ⟨k1, k2, k3⟩ := hk
    obtain ⟨k1', k2', k3'⟩ := hk'
    have e := List.append_cancel_left e
    obtain ⟨e1, e⟩ := List.append_inj e (by simp)
    obtain ⟨e2, e3⟩ := List.append_inj e (by rw [k2, k2'])
    have e1 := toLe_inj (by omega) (by omega) e1
    have e3 := toLe_inj (by omega) (by omega) e3
    cases k; cases k'
    simp_all
  · unfold validId cacheId
    rw [Bool.and_eq_true, decide_eq_true_eq, hex_length, hd, List.all_eq_true]
    refine ⟨rfl, fun c hc => ?_⟩
    rw [Bool.or_eq_true, decide_eq_true_eq, decide_eq_true_eq]
    exact hex_ok hc

/-- A codec to try the definitions with: no compression, and a "digest" made of the length. -/
def plain : Codec where
  sha p := toLe 32 p.length
  compress p := p
  stream z := (z, false)

/-- Concrete files: a three-byte payload written and read, the file cut at every byte, and a wrong key. -/
theorem c25_example :
    plain.Digest ∧ plain.Lossless ∧
    (∃ e, publishBytes plain .gem [1, 2, 3] = some e ∧ e.length = 63 ∧ readProduct plain .gem e = some [1, 2, 3] ∧
      readProduct plain .java e = none ∧ (List.range 63).all (fun n => decide (readProduct plain .gem (e.take n) = none)) = true) := by
  refine ⟨fun p => toLe_length _ _, fun p => rfl, _, rfl, by decide, by decide, by decide, by decide⟩

theorem c26_example :
    let k := newKey plain [7, 7] 9
    ∃ f, encodeWasm plain k [1, 2, 3] = some f ∧ f.length = 95 ∧ decodeWasm plain k f = some [1, 2, 3] ∧
      decodeWasm plain { k with compiler := 10 } f = none ∧ decodeWasm plain (newKey plain [7] 9) f = none := by
  refine ⟨_, rfl, by decide, by decide, by decide, by decide⟩

end Verif.Envelope
