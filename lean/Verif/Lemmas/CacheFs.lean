import Verif.Model.CacheFs
import Verif.Props.Envelope
import Verif.Props.Owners
namespace Verif.CacheFs
open Verif.Envelope Verif.Owners

/-! ### names -/

theorem valid_length {id : List Char} (h : validId id = true) : id.length = 64 := by
  unfold validId at h
  rw [Bool.and_eq_true, decide_eq_true_eq] at h
  exact h.1

theorem temp_ne_product (k k' : Kind) (id id' : List Char) (p q : Nat) : tempPath k id p q ≠ productPath k' id' := by
  intro h
  have h := congrArg (fun p => p.file.getLast?) h
  have h1 : (tempPath k id p q).file.getLast? = some 'p' := by
    have : (tempPath k id p q).file = ('.' :: (id ++ ('.' :: (decimal p ++ ('.' :: (decimal q ++ ".tm".toList)))))) ++ ['p'] := by
      simp [tempPath]
    rw [this, List.getLast?_concat]
  have h2 : (productPath k' id').file.getLast? = some 't' := by
    have : (productPath k' id').file = (id' ++ ".rflsp-produc".toList) ++ ['t'] := by simp [productPath]
    rw [this, List.getLast?_concat]
  rw [h1, h2] at h
  exact absurd h (by decide)

theorem digits_val {f n : Nat} (h : n < f) : (digits f n).foldl (fun a d => a * 10 + d) 0 = n := by
  induction f generalizing n with
  | zero => omega
  | succ f ih =>
    simp only [digits]
    split
    · simp
    · rw [List.foldl_append, ih (by omega)]
      simp only [List.foldl_cons, List.foldl_nil]
      omega

theorem digitChar_inj {a b : Nat} (ha : a < 10) (hb : b < 10) (h : digitChar a = digitChar b) : a = b := by
  have := congrArg digitVal h
  rw [digitVal_digitChar ha, digitVal_digitChar hb] at this
  exact Option.some.inj this

theorem map_inj_on {α β : Type} {f : α → β} {l m : List α} (hf : ∀ a ∈ l, ∀ b ∈ m, f a = f b → a = b) (h : l.map f = m.map f) : l = m := by
  induction l generalizing m with
  | nil => cases m with
    | nil => rfl
    | cons b m => cases h
  | cons a l ih => cases m with
    | nil => cases h
    | cons b m =>
      simp only [List.map_cons, List.cons.injEq] at h
      rw [hf a (by simp) b (by simp) h.1, ih (fun a ha b hb => hf a (by simp [ha]) b (by simp [hb])) h.2]

theorem decimal_inj {m n : Nat} (h : decimal m = decimal n) : m = n := by
  have := map_inj_on (fun a ha b hb => digitChar_inj (digits_lt ha) (digits_lt hb)) h
  rw [← digits_val (Nat.lt_succ_self m), ← digits_val (Nat.lt_succ_self n), this]

theorem decimal_no_dot {n : Nat} : ∀ c ∈ decimal n, c ≠ '.' := by
  intro c hc
  obtain ⟨d, hd, rfl⟩ := List.mem_map.mp hc
  have key : ∀ d : Fin 10, digitChar d.1 ≠ '.' := by decide
  exact key ⟨d, digits_lt hd⟩

theorem split_dot {a b s t : List Char} (ha : ∀ c ∈ a, c ≠ '.') (hb : ∀ c ∈ b, c ≠ '.') (h : a ++ '.' :: s = b ++ '.' :: t) :
    a = b ∧ s = t := by
  induction a generalizing b with
  | nil =>
    cases b with
    | nil => simp at h; exact ⟨rfl, h⟩
    | cons x b =>
      simp only [List.nil_append, List.cons_append, List.cons.injEq] at h
      exact absurd h.1.symm (hb x (by simp))
  | cons x a ih =>
    cases b with
    | nil =>
      simp only [List.nil_append, List.cons_append, List.cons.injEq] at h
      exact absurd h.1 (ha x (by simp))
    | cons y b =>
      simp only [List.cons_append, List.cons.injEq] at h
      obtain ⟨e1, e2⟩ := ih (fun c hc => ha c (by simp [hc])) (fun c hc => hb c (by simp [hc])) h.2
      exact ⟨by rw [h.1, e1], e2⟩

theorem temp_inj {k k' : Kind} {id id' : List Char} {p q p' q' : Nat} (hv : validId id = true) (hv' : validId id' = true)
    (h : tempPath k id p q = tempPath k' id' p' q') : k = k' ∧ id = id' ∧ p = p' ∧ q = q' := by
  unfold tempPath at h
  injection h with h1 _ h3
  injection h3 with _ h3
  obtain ⟨e1, h3⟩ := List.append_inj h3 (by rw [valid_length hv, valid_length hv'])
  injection h3 with _ h3
  obtain ⟨e2, h3⟩ := split_dot decimal_no_dot decimal_no_dot h3
  have e3 := List.append_cancel_right h3
  exact ⟨h1, e1, decimal_inj e2, decimal_inj e3⟩

theorem product_inj {k k' : Kind} {id id' : List Char} (h : productPath k id = productPath k' id') : k = k' ∧ id = id' := by
  unfold productPath at h
  injection h with h1 _ h3
  exact ⟨h1, List.append_cancel_right h3⟩

/-! ### directories -/

theorem set_apply {α β : Type} [DecidableEq α] (f : α → β) (a : α) (b : β) (x : α) : set f a b x = if x = a then b else f x := rfl

theorem applyOp_some {d : Path → Option Nat} {op : Op} {p : Path} {j : Nat} (h : applyOp d op p = some j) :
    d p = some j ∨ (p, some j) ∈ op := by
  unfold applyOp at h
  induction op generalizing d with
  | nil => exact .inl h
  | cons u op ih =>
    rw [List.foldl_cons] at h
    rcases ih h with h | h
    · unfold applyUpdate at h
      split at h
      · rename_i e
        right
        obtain ⟨q, v⟩ := u
        dsimp only at e h
        rw [e, h]
        exact List.mem_cons_self
      · exact .inl h
    · exact .inr (List.mem_cons_of_mem _ h)

theorem applyOps_some {d : Path → Option Nat} {ops : List Op} {p : Path} {j : Nat} (h : applyOps d ops p = some j) :
    d p = some j ∨ ∃ op ∈ ops, (p, some j) ∈ op := by
  unfold applyOps at h
  induction ops generalizing d with
  | nil => exact .inl h
  | cons op ops ih =>
    rw [List.foldl_cons] at h
    rcases ih h with h | ⟨o, ho, h⟩
    · rcases applyOp_some h with h | h
      · exact .inl h
      · exact .inr ⟨op, List.mem_cons_self, h⟩
    · exact .inr ⟨o, List.mem_cons_of_mem _ ho, h⟩

/-- The inode is, was, or may again become the file at this path. -/
def Linked (s : State) (p : Path) (j : Nat) : Prop := s.dir p = some j ∨ s.durable p = some j ∨ ∃ op ∈ s.pend, (p, some j) ∈ op

theorem linked_change {s : State} {op : Op} {p : Path} {j : Nat} (h : Linked (s.change op) p j) : Linked s p j ∨ (p, some j) ∈ op := by
  rcases h with h | h | ⟨o, ho, h⟩
  · rcases applyOp_some h with h | h
    · exact .inl (.inl h)
    · exact .inr h
  · exact .inl (.inr (.inl h))
  · rcases List.mem_append.mp ho with ho | ho
    · exact .inl (.inr (.inr ⟨o, ho, h⟩))
    · rw [List.mem_singleton] at ho
      subst ho
      exact .inr h

/-! ### the invariant -/

/-- Contents a lookup may see under an identity: what was there at the beginning, or the complete file of a published payload. -/
def Good (C : Codec) (s0 s : State) (kind : Kind) (id : List Char) (d : List UInt8) : Prop :=
  (∃ j, s0.dir (productPath kind id) = some j ∧ s0.data j = d) ∨
  ∃ p, (kind, id, p) ∈ s.log ∧ publishBytes C kind p = some d

/-- Nobody writes to the inode any more and its contents are on disk. -/
def Sealed (s : State) (j : Nat) : Prop :=
  j < s.next ∧ s.isSynced j = true ∧ ∀ i k id b n, s.pubs i ≠ .writing k id b j n

structure Inv (C : Codec) (s0 s : State) : Prop where
  linked : ∀ k id j, Linked s (productPath k id) j → Sealed s j ∧ Good C s0 s k id (s.data j)
  reading : ∀ r k id j got, s.readers r = .reading k id j got →
    Sealed s j ∧ Good C s0 s k id (s.data j) ∧ ∃ rest, s.data j = got ++ rest
  done : ∀ r k id got, s.readers r = .done k id got → Good C s0 s k id got
  ready : ∀ i k id b, s.pubs i = .ready k id b → validId id = true ∧ ∃ p, (k, id, p) ∈ s.log ∧ publishBytes C k p = some b
  writing : ∀ i k id b j n, s.pubs i = .writing k id b j n → validId id = true ∧ (∃ p, (k, id, p) ∈ s.log ∧ publishBytes C k p = some b) ∧
    j < s.next ∧ s.data j = b.take n ∧ ∀ j', s.dir (tempPath k id i.1 i.2) = some j' → j' = j
  synced : ∀ i k id b j, s.pubs i = .synced k id b j → validId id = true ∧ (∃ p, (k, id, p) ∈ s.log ∧ publishBytes C k p = some b) ∧
    Sealed s j ∧ s.data j = b ∧ ∀ j', s.dir (tempPath k id i.1 i.2) = some j' → j' = j
  uniq : ∀ i k id b j n i' k' id' b' n', s.pubs i = .writing k id b j n → s.pubs i' = .writing k' id' b' j n' → i = i'
  slots : ∀ pid q, s.pubs (pid, q) ≠ .idle → q < s.seq pid

theorem good_log {C : Codec} {s0 s s' : State} (h : ∀ x ∈ s.log, x ∈ s'.log) {k : Kind} {id : List Char} {d : List UInt8}
    (hg : Good C s0 s k id d) : Good C s0 s' k id d := by
  rcases hg with hg | ⟨p, hp, hb⟩
  · exact .inl hg
  · exact .inr ⟨p, h _ hp, hb⟩

theorem inv_init {C : Codec} {s0 : State} (h : AtRest s0) : Inv C s0 s0 where
  linked := by
    intro k id j hl
    have hd : s0.dir (productPath k id) = some j := by
      rcases hl with hl | hl | ⟨op, ho, -⟩
      · exact hl
      · rw [h.durable] at hl; exact hl
      · rw [h.pend] at ho; simp at ho
    obtain ⟨h1, h2⟩ := h.synced _ _ hd
    refine ⟨⟨h2, h1, fun i k id b n hw => ?_⟩, .inl ⟨j, hd, rfl⟩⟩
    rw [h.pubs] at hw; cases hw
  reading := by intro r k id j got hr; rw [h.readers] at hr; cases hr
  done := by intro r k id got hr; rw [h.readers] at hr; cases hr
  ready := by intro i k id b hr; rw [h.pubs] at hr; cases hr
  writing := by intro i k id b j n hr; rw [h.pubs] at hr; cases hr
  synced := by intro i k id b j hr; rw [h.pubs] at hr; cases hr
  uniq := by intro i k id b j n i' k' id' b' n' hr; rw [h.pubs] at hr; cases hr
  slots := by intro pid q hr; exact absurd (h.pubs _) hr

/-- A publication that stops writing, without any other change, keeps the invariant; `dir` and `pend` may gain removals of temporary
or other files. -/
theorem inv_shrink {C : Codec} {s0 s s' : State} (h : Inv C s0 s)
    (hdata : s'.data = s.data) (hsync : s'.isSynced = s.isSynced) (hnext : s'.next = s.next)
    (hlinked : ∀ k id j, Linked s' (productPath k id) j → Linked s (productPath k id) j)
    (hdir : ∀ p j, s'.dir p = some j → s.dir p = some j)
    (hpubs : ∀ i, s'.pubs i = s.pubs i ∨ s'.pubs i = .idle)
    (hseq : ∀ pid q, s'.pubs (pid, q) ≠ .idle → s'.seq pid = s.seq pid)
    (hread : s'.readers = s.readers) (hlog : s'.log = s.log) : Inv C s0 s' := by
  have back : ∀ i x, s'.pubs i = x → x ≠ .idle → s.pubs i = x := by
    intro i x hx hne
    rcases hpubs i with h | h
    · rw [← h, hx]
    · exact absurd (hx.symm.trans h) hne
  have hseal : ∀ j, Sealed s j → Sealed s' j := by
    rintro j ⟨h1, h2, h3⟩
    refine ⟨by rw [hnext]; exact h1, by rw [hsync]; exact h2, fun i k id b n hw => ?_⟩
    exact h3 i k id b n (back i _ hw (by simp))
  have hgood : ∀ {k id d}, Good C s0 s k id d → Good C s0 s' k id d := fun hg => good_log (by rw [hlog]; exact fun _ h => h) hg
  constructor
  · intro k id j hl
    obtain ⟨h1, h2⟩ := h.linked k id j (hlinked k id j hl)
    exact ⟨hseal j h1, by rw [hdata]; exact hgood h2⟩
  · intro r k id j got hr
    rw [hread] at hr
    obtain ⟨h1, h2, h3⟩ := h.reading r k id j got hr
    exact ⟨hseal j h1, by rw [hdata]; exact hgood h2, by rw [hdata]; exact h3⟩
  · intro r k id got hr
    rw [hread] at hr
    exact hgood (h.done r k id got hr)
  · intro i k id b hr
    rw [hlog]
    exact h.ready i k id b (back i _ hr (by simp))
  · intro i k id b j n hr
    rw [hlog, hnext, hdata]
    obtain ⟨h1, h2, h3, h4, h5⟩ := h.writing i k id b j n (back i _ hr (by simp))
    exact ⟨h1, h2, h3, h4, fun j' hj => h5 j' (hdir _ _ hj)⟩
  · intro i k id b j hr
    rw [hlog, hdata]
    obtain ⟨h1, h2, h3, h4, h5⟩ := h.synced i k id b j (back i _ hr (by simp))
    exact ⟨h1, h2, hseal j h3, h4, fun j' hj => h5 j' (hdir _ _ hj)⟩
  · intro i k id b j n i' k' id' b' n' h1 h2
    exact h.uniq i k id b j n i' k' id' b' n' (back _ _ h1 (by simp)) (back _ _ h2 (by simp))
  · intro pid q hne
    have : s.pubs (pid, q) ≠ .idle := by
      intro hi
      rcases hpubs (pid, q) with h | h
      · exact hne (h.trans hi)
      · exact hne h
    rw [hseq pid q hne]
    exact h.slots pid q this

theorem applyOp_single {d : Path → Option Nat} {p q : Path} {v : Option Nat} : applyOp d [(p, v)] q = if q = p then v else d q := rfl

theorem linked_remove {s : State} {p q : Path} {j : Nat} (h : Linked (s.change [(q, none)]) p j) : Linked s p j := by
  rcases linked_change h with h | h
  · exact h
  · simp at h

theorem dir_remove {s : State} {p q : Path} {j : Nat} (h : (s.change [(q, none)]).dir p = some j) : s.dir p = some j := by
  simp only [State.change, applyOp_single] at h
  split at h
  · cases h
  · exact h

theorem set_idle {f : Nat × Nat → Pub} {i x : Nat × Nat} : set f i .idle x = f x ∨ set f i .idle x = .idle := by
  unfold set; split
  · exact .inr rfl
  · exact .inl rfl

theorem inv_step {C : Codec} {s0 s s' : State} (h : Inv C s0 s) (hs : Step C s s') : Inv C s0 s' := by
  cases hs with
  | start pid kind id payload bytes hv hp =>
    have hfree : s.pubs (pid, s.seq pid) = .idle := by
      by_cases hi : s.pubs (pid, s.seq pid) = .idle
      · exact hi
      · exact absurd (h.slots _ _ hi) (Nat.lt_irrefl _)
    have back : ∀ i x, set s.pubs (pid, s.seq pid) (.ready kind id bytes) i = x → (∀ k id b, x ≠ .ready k id b) → s.pubs i = x := by
      intro i x hx hne
      rw [set_apply] at hx
      split at hx
      · exact absurd hx.symm (hne _ _ _)
      · exact hx
    have hseal : ∀ j, Sealed s j → Sealed { s with pubs := set s.pubs (pid, s.seq pid) (.ready kind id bytes), seq := set s.seq pid (s.seq pid + 1), log := s.log ++ [(kind, id, payload)] } j := by
      rintro j ⟨h1, h2, h3⟩
      exact ⟨h1, h2, fun i k id b n hw => h3 i k id b n (back i _ hw (by simp))⟩
    have hlog : ∀ x ∈ s.log, x ∈ s.log ++ [(kind, id, payload)] := fun x hx => List.mem_append_left _ hx
    constructor
    · intro k id j hl
      obtain ⟨h1, h2⟩ := h.linked k id j hl
      exact ⟨hseal j h1, good_log hlog h2⟩
    · intro r k id j got hr
      obtain ⟨h1, h2, h3⟩ := h.reading r k id j got hr
      exact ⟨hseal j h1, good_log hlog h2, h3⟩
    · intro r k id got hr
      exact good_log hlog (h.done r k id got hr)
    · intro i k id' b hr
      dsimp only at hr ⊢
      rw [set_apply] at hr
      split at hr
      · cases hr
        exact ⟨hv, payload, by simp, hp⟩
      · obtain ⟨h1, p, h2, h3⟩ := h.ready i k id' b hr
        exact ⟨h1, p, hlog _ h2, h3⟩
    · intro i k id' b j n hr
      obtain ⟨h1, ⟨p, h2, h3⟩, h4⟩ := h.writing i k id' b j n (back i _ hr (by simp))
      exact ⟨h1, ⟨p, hlog _ h2, h3⟩, h4⟩
    · intro i k id' b j hr
      obtain ⟨h1, ⟨p, h2, h3⟩, h4, h5⟩ := h.synced i k id' b j (back i _ hr (by simp))
      exact ⟨h1, ⟨p, hlog _ h2, h3⟩, hseal j h4, h5⟩
    · intro i k id b j n i' k' id' b' n' h1 h2
      exact h.uniq i k id b j n i' k' id' b' n' (back _ _ h1 (by simp)) (back _ _ h2 (by simp))
    · intro pid' q hne
      dsimp only at hne ⊢
      rw [set_apply] at hne
      rw [set_apply]
      split at hne
      · rename_i e
        cases e
        rw [if_pos rfl]; omega
      · have := h.slots pid' q hne
        split
        · rename_i e; subst e; omega
        · exact this
  | create i kind id bytes hp hd =>
    obtain ⟨hv, hpay⟩ := h.ready i kind id bytes hp
    have back : ∀ i' x, set s.pubs i (.writing kind id bytes s.next 0) i' = x → (∀ k id b j n, x ≠ .writing k id b j n) → s.pubs i' = x := by
      intro i' x hx hne
      rw [set_apply] at hx
      split at hx
      · exact absurd hx.symm (hne _ _ _ _ _)
      · exact hx
    have hseal : ∀ j, Sealed s j → j ≠ s.next ∧ Sealed { s.change [(tempPath kind id i.1 i.2, some s.next)] with
                  data := set s.data s.next [], isSynced := set s.isSynced s.next false, next := s.next + 1,
                  pubs := set s.pubs i (.writing kind id bytes s.next 0) } j := by
      rintro j ⟨h1, h2, h3⟩
      have hne : j ≠ s.next := by omega
      refine ⟨hne, Nat.lt_succ_of_lt h1, ?_, fun i' k id b n hw => ?_⟩
      · show set s.isSynced s.next false j = true
        rw [set_apply, if_neg hne]; exact h2
      · dsimp only at hw
        rw [set_apply] at hw
        split at hw
        · cases hw; exact hne rfl
        · exact h3 _ _ _ _ _ hw
    have hdata : ∀ j, j ≠ s.next → set s.data s.next [] j = s.data j := fun j hj => by rw [set_apply, if_neg hj]
    have htmp : ∀ i' k' id', i' ≠ i → validId id' = true →
        (s.change [(tempPath kind id i.1 i.2, some s.next)]).dir (tempPath k' id' i'.1 i'.2) = s.dir (tempPath k' id' i'.1 i'.2) := by
      intro i' k' id' hne hv'
      simp only [State.change, applyOp_single]
      rw [if_neg]
      intro e
      obtain ⟨-, -, e1, e2⟩ := temp_inj hv' hv e
      exact hne (Prod.ext e1 e2)
    constructor
    · intro k id' j hl
      have hl' : Linked s (productPath k id') j := by
        rcases linked_change hl with hl | hl
        · exact hl
        · rw [List.mem_singleton] at hl
          injection hl with e _
          exact absurd e.symm (temp_ne_product _ _ _ _ _ _)
      obtain ⟨h1, h2⟩ := h.linked k id' j hl'
      obtain ⟨h3, h4⟩ := hseal j h1
      refine ⟨h4, ?_⟩
      show Good C s0 _ k id' (set s.data s.next [] j)
      rw [hdata j h3]; exact h2
    · intro r k id' j got hr
      obtain ⟨h1, h2, h3⟩ := h.reading r k id' j got hr
      obtain ⟨h4, h5⟩ := hseal j h1
      refine ⟨h5, ?_, ?_⟩
      · show Good C s0 _ k id' (set s.data s.next [] j)
        rw [hdata j h4]; exact h2
      · show ∃ rest, set s.data s.next [] j = got ++ rest
        rw [hdata j h4]; exact h3
    · intro r k id' got hr
      exact h.done r k id' got hr
    · intro i' k id' b hr
      exact h.ready i' k id' b (back i' _ hr (by simp))
    · intro i' k id' b j n hr
      dsimp only at hr
      rw [set_apply] at hr
      split at hr
      · rename_i e
        subst e
        cases hr
        refine ⟨hv, hpay, Nat.lt_succ_self _, ?_, ?_⟩
        · show set s.data s.next [] s.next = _
          rw [set_apply, if_pos rfl]; rfl
        · intro j' hj
          simp only [State.change, applyOp_single, if_pos] at hj
          exact (Option.some.inj hj).symm
      · rename_i hne
        obtain ⟨h1, h2, h3, h4, h5⟩ := h.writing i' k id' b j n hr
        refine ⟨h1, h2, Nat.lt_succ_of_lt h3, ?_, ?_⟩
        · show set s.data s.next [] j = _
          rw [hdata j (by omega)]; exact h4
        · intro j' hj
          exact h5 j' ((htmp i' k id' hne h1).symm.trans hj)
    · intro i' k id' b j hr
      have hne : i' ≠ i := by
        rintro rfl
        dsimp only at hr
        rw [set_apply, if_pos rfl] at hr; cases hr
      obtain ⟨h1, h2, h3, h4, h5⟩ := h.synced i' k id' b j (back i' _ hr (by simp))
      obtain ⟨h6, h7⟩ := hseal j h3
      refine ⟨h1, h2, h7, ?_, ?_⟩
      · show set s.data s.next [] j = _
        rw [hdata j h6]; exact h4
      · intro j' hj
        exact h5 j' ((htmp i' k id' hne h1).symm.trans hj)
    · intro i1 k id1 b j n i2 k' id2 b' n' h1 h2
      dsimp only at h1 h2
      rw [set_apply] at h1 h2
      split at h1 <;> split at h2
      · rename_i e1 e2; rw [e1, e2]
      · cases h1
        have := (h.writing _ _ _ _ _ _ h2).2.2.1
        exact absurd this (Nat.lt_irrefl _)
      · cases h2
        have := (h.writing _ _ _ _ _ _ h1).2.2.1
        exact absurd this (Nat.lt_irrefl _)
      · exact h.uniq i1 k id1 b j n i2 k' id2 b' n' h1 h2
    · intro pid q hne
      dsimp only at hne ⊢
      rw [set_apply] at hne
      split at hne
      · rename_i e
        exact h.slots pid q (by rw [e, hp]; simp)
      · exact h.slots pid q hne
  | createFail i kind id bytes hp =>
    exact inv_shrink h rfl rfl rfl (fun _ _ _ h => h) (fun _ _ h => h) (fun _ => set_idle) (fun _ _ _ => rfl) rfl rfl
  | write i kind id bytes ino n m hp hle =>
    obtain ⟨hv, hpay, hlt, hdat, htmp⟩ := h.writing i kind id bytes ino n hp
    have hseal : ∀ j, Sealed s j → j ≠ ino ∧ Sealed { s with data := set s.data ino (bytes.take (n + m)), isSynced := set s.isSynced ino false, pubs := set s.pubs i (.writing kind id bytes ino (n + m)) } j := by
      rintro j ⟨h1, h2, h3⟩
      have hne : j ≠ ino := by rintro rfl; exact h3 _ _ _ _ _ hp
      refine ⟨hne, h1, ?_, fun i' k id b n hw => ?_⟩
      · show set s.isSynced ino false j = true
        rw [set_apply, if_neg hne]; exact h2
      · dsimp only at hw
        rw [set_apply] at hw
        split at hw
        · cases hw; exact hne rfl
        · exact h3 _ _ _ _ _ hw
    have hdata : ∀ j, j ≠ ino → set s.data ino (bytes.take (n + m)) j = s.data j := fun j hj => by rw [set_apply, if_neg hj]
    have back : ∀ i' x, set s.pubs i (.writing kind id bytes ino (n + m)) i' = x → (∀ k id b j n, x ≠ .writing k id b j n) → s.pubs i' = x := by
      intro i' x hx hne
      rw [set_apply] at hx
      split at hx
      · exact absurd hx.symm (hne _ _ _ _ _)
      · exact hx
    constructor
    · intro k id' j hl
      obtain ⟨h1, h2⟩ := h.linked k id' j hl
      obtain ⟨h3, h4⟩ := hseal j h1
      refine ⟨h4, ?_⟩
      show Good C s0 _ k id' (set s.data ino _ j)
      rw [hdata j h3]; exact h2
    · intro r k id' j got hr
      obtain ⟨h1, h2, h3⟩ := h.reading r k id' j got hr
      obtain ⟨h4, h5⟩ := hseal j h1
      refine ⟨h5, ?_, ?_⟩
      · show Good C s0 _ k id' (set s.data ino _ j)
        rw [hdata j h4]; exact h2
      · show ∃ rest, set s.data ino _ j = got ++ rest
        rw [hdata j h4]; exact h3
    · intro r k id' got hr
      exact h.done r k id' got hr
    · intro i' k id' b hr
      exact h.ready i' k id' b (back i' _ hr (by simp))
    · intro i' k id' b j n' hr
      dsimp only at hr
      rw [set_apply] at hr
      split at hr
      · rename_i e
        subst e
        cases hr
        refine ⟨hv, hpay, hlt, ?_, htmp⟩
        show set s.data ino _ ino = _
        rw [set_apply, if_pos rfl]
      · rename_i hne
        obtain ⟨h1, h2, h3, h4, h5⟩ := h.writing i' k id' b j n' hr
        refine ⟨h1, h2, h3, ?_, h5⟩
        show set s.data ino _ j = _
        rw [hdata j]
        · exact h4
        · rintro rfl
          exact hne (h.uniq _ _ _ _ _ _ _ _ _ _ _ hr hp)
    · intro i' k id' b j hr
      obtain ⟨h1, h2, h3, h4, h5⟩ := h.synced i' k id' b j (back i' _ hr (by simp))
      obtain ⟨h6, h7⟩ := hseal j h3
      refine ⟨h1, h2, h7, ?_, h5⟩
      show set s.data ino _ j = _
      rw [hdata j h6]; exact h4
    · intro i1 k id1 b j n1 i2 k' id2 b' n2 h1 h2
      dsimp only at h1 h2
      rw [set_apply] at h1 h2
      split at h1 <;> split at h2
      · rename_i e1 e2; rw [e1, e2]
      · rename_i e1 e2
        cases h1
        rw [e1]
        exact h.uniq _ _ _ _ _ _ _ _ _ _ _ hp h2
      · rename_i e1 e2
        cases h2
        rw [e2]
        exact h.uniq _ _ _ _ _ _ _ _ _ _ _ h1 hp
      · exact h.uniq _ _ _ _ _ _ _ _ _ _ _ h1 h2
    · intro pid q hne
      dsimp only at hne ⊢
      rw [set_apply] at hne
      split at hne
      · rename_i e
        exact h.slots pid q (by rw [e, hp]; simp)
      · exact h.slots pid q hne
  | sync i kind id bytes ino hp =>
    obtain ⟨hv, hpay, hlt, hdat, htmp⟩ := h.writing i kind id bytes ino bytes.length hp
    rw [List.take_length] at hdat
    have back : ∀ i' x, set s.pubs i (.synced kind id bytes ino) i' = x → (∀ k id b j, x ≠ .synced k id b j) → s.pubs i' = x := by
      intro i' x hx hne
      rw [set_apply] at hx
      split at hx
      · exact absurd hx.symm (hne _ _ _ _)
      · exact hx
    have hseal : ∀ j, Sealed s j → Sealed { s with isSynced := set s.isSynced ino true, pubs := set s.pubs i (.synced kind id bytes ino) } j := by
      rintro j ⟨h1, h2, h3⟩
      refine ⟨h1, ?_, fun i' k id b n hw => h3 _ _ _ _ _ (back i' _ hw (by simp))⟩
      show set s.isSynced ino true j = true
      rw [set_apply]; split
      · rfl
      · exact h2
    constructor
    · intro k id' j hl
      obtain ⟨h1, h2⟩ := h.linked k id' j hl
      exact ⟨hseal j h1, h2⟩
    · intro r k id' j got hr
      obtain ⟨h1, h2, h3⟩ := h.reading r k id' j got hr
      exact ⟨hseal j h1, h2, h3⟩
    · intro r k id' got hr
      exact h.done r k id' got hr
    · intro i' k id' b hr
      exact h.ready i' k id' b (back i' _ hr (by simp))
    · intro i' k id' b j n' hr
      exact h.writing i' k id' b j n' (back i' _ hr (by simp))
    · intro i' k id' b j hr
      dsimp only at hr
      rw [set_apply] at hr
      split at hr
      · rename_i e
        subst e
        cases hr
        refine ⟨hv, hpay, ⟨hlt, ?_, ?_⟩, hdat, htmp⟩
        · show set s.isSynced ino true ino = true
          rw [set_apply, if_pos rfl]
        · intro i2 k2 id2 b2 n2 hw
          dsimp only at hw
          rw [set_apply] at hw
          split at hw
          · cases hw
          · rename_i hne
            exact hne (h.uniq _ _ _ _ _ _ _ _ _ _ _ hw hp)
      · obtain ⟨h1, h2, h3, h4, h5⟩ := h.synced i' k id' b j hr
        exact ⟨h1, h2, hseal j h3, h4, h5⟩
    · intro i1 k id1 b j n1 i2 k' id2 b' n2 h1 h2
      exact h.uniq _ _ _ _ _ _ _ _ _ _ _ (back _ _ h1 (by simp)) (back _ _ h2 (by simp))
    · intro pid q hne
      dsimp only at hne ⊢
      rw [set_apply] at hne
      split at hne
      · rename_i e
        exact h.slots pid q (by rw [e, hp]; simp)
      · exact h.slots pid q hne
  | rename i kind id bytes ino j hp hd =>
    obtain ⟨hv, ⟨payload, hlog, hpb⟩, hsl, hdat, htmp⟩ := h.synced i kind id bytes ino hp
    have hj : j = ino := htmp j hd
    subst hj
    -- first the directory change alone, then the change of the publication
    let s1 : State := { s with pubs := set s.pubs i .idle }
    have h1 : Inv C s0 s1 :=
      inv_shrink h rfl rfl rfl (fun _ _ _ h => h) (fun _ _ h => h) (fun _ => set_idle) (fun _ _ _ => rfl) rfl rfl
    have back : ∀ i' x, set s.pubs i (.renamed kind id) i' = x → (∀ k id, x ≠ .renamed k id) → x ≠ .idle → s1.pubs i' = x := by
      intro i' x hx hne _
      show set s.pubs i .idle i' = x
      rw [set_apply] at hx ⊢
      split at hx
      · exact absurd hx.symm (hne _ _)
      · rename_i hi; rw [if_neg hi]; exact hx
    have hseal : ∀ j', Sealed s1 j' → Sealed { s.change [(productPath kind id, some j), (tempPath kind id i.1 i.2, none)] with pubs := set s.pubs i (.renamed kind id) } j' := by
      rintro j' ⟨h1, h2, h3⟩
      exact ⟨h1, h2, fun i' k id b n hw => h3 _ _ _ _ _ (back i' _ hw (by simp) (by simp))⟩
    have hsl1 : Sealed s1 j := by
      refine ⟨hsl.1, hsl.2.1, fun i' k id b n hw => ?_⟩
      have hw : set s.pubs i .idle i' = .writing k id b j n := hw
      rw [set_apply] at hw
      split at hw
      · cases hw
      · exact hsl.2.2 _ _ _ _ _ hw
    have hdir : ∀ k' id' p q j', (s.change [(productPath kind id, some j), (tempPath kind id i.1 i.2, none)]).dir (tempPath k' id' p q) = some j' →
        s.dir (tempPath k' id' p q) = some j' := by
      intro k' id' p q j' hj'
      simp only [State.change, applyOp, List.foldl_cons, List.foldl_nil, applyUpdate] at hj'
      split at hj'
      · cases hj'
      · rw [if_neg (temp_ne_product _ _ _ _ _ _)] at hj'
        exact hj'
    constructor
    · intro k id' j' hl
      rcases linked_change hl with hl | hl
      · obtain ⟨a, b⟩ := h1.linked k id' j' hl
        exact ⟨hseal j' a, b⟩
      · simp only [List.mem_cons, Prod.mk.injEq, Option.some.injEq, reduceCtorEq, and_false, List.not_mem_nil, or_false] at hl
        obtain ⟨e, rfl⟩ := hl
        obtain ⟨rfl, rfl⟩ := product_inj e
        refine ⟨hseal _ hsl1, .inr ⟨payload, hlog, ?_⟩⟩
        show publishBytes C k payload = some (s.data j')
        rw [hdat]; exact hpb
    · intro r k id' j' got hr
      obtain ⟨a, b, c⟩ := h1.reading r k id' j' got hr
      exact ⟨hseal j' a, b, c⟩
    · intro r k id' got hr
      exact h.done r k id' got hr
    · intro i' k id' b hr
      exact h1.ready i' k id' b (back i' _ hr (by simp) (by simp))
    · intro i' k id' b j' n' hr
      obtain ⟨a1, a2, a3, a4, a5⟩ := h1.writing i' k id' b j' n' (back i' _ hr (by simp) (by simp))
      exact ⟨a1, a2, a3, a4, fun x hx => a5 x (hdir _ _ _ _ _ hx)⟩
    · intro i' k id' b j' hr
      obtain ⟨a1, a2, a3, a4, a5⟩ := h1.synced i' k id' b j' (back i' _ hr (by simp) (by simp))
      exact ⟨a1, a2, hseal j' a3, a4, fun x hx => a5 x (hdir _ _ _ _ _ hx)⟩
    · intro i1 k id1 b j' n1 i2 k' id2 b' n2 e1 e2
      exact h1.uniq _ _ _ _ _ _ _ _ _ _ _ (back _ _ e1 (by simp) (by simp)) (back _ _ e2 (by simp) (by simp))
    · intro pid q hne
      dsimp only at hne ⊢
      rw [set_apply] at hne
      split at hne
      · rename_i e
        exact h.slots pid q (by rw [e, hp]; simp)
      · exact h.slots pid q hne
  | writeFail i kind id bytes ino n hp =>
    exact inv_shrink h rfl rfl rfl (fun _ _ _ h => linked_remove h) (fun _ _ h => dir_remove h) (fun _ => set_idle) (fun _ _ _ => rfl) rfl rfl
  | renameFail i kind id bytes ino hp =>
    exact inv_shrink h rfl rfl rfl (fun _ _ _ h => linked_remove h) (fun _ _ h => dir_remove h) (fun _ => set_idle) (fun _ _ _ => rfl) rfl rfl
  | syncDir i kind id hp =>
    refine inv_shrink h rfl rfl rfl ?_ (fun _ _ h => h) (fun _ => set_idle) (fun _ _ _ => rfl) rfl rfl
    rintro k id' j (hl | hl | ⟨op, ho, hl⟩)
    · exact .inl hl
    · rcases applyOps_some hl with hl | ⟨op, ho, hl⟩
      · exact .inr (.inl hl)
      · exact .inr (.inr ⟨op, (List.mem_filter.mp ho).1, hl⟩)
    · exact .inr (.inr ⟨op, (List.mem_filter.mp ho).1, hl⟩)
  | syncDirFail i kind id hp =>
    exact inv_shrink h rfl rfl rfl (fun _ _ _ h => linked_remove h) (fun _ _ h => dir_remove h) (fun _ => set_idle) (fun _ _ _ => rfl) rfl rfl
  | unlink p =>
    exact inv_shrink h rfl rfl rfl (fun _ _ _ h => linked_remove h) (fun _ _ h => dir_remove h) (fun _ => .inl rfl) (fun _ _ _ => rfl) rfl rfl
  | open_ r kind id ino hd =>
    obtain ⟨g1, g2⟩ := h.linked kind id ino (.inl hd)
    refine ⟨h.linked, ?_, ?_, h.ready, h.writing, h.synced, h.uniq, h.slots⟩
    · intro r' k id' j got hr
      dsimp only at hr
      rw [set_apply] at hr
      split at hr
      · cases hr
        exact ⟨g1, g2, _, rfl⟩
      · exact h.reading r' k id' j got hr
    · intro r' k id' got hr
      dsimp only at hr
      rw [set_apply] at hr
      split at hr
      · cases hr
      · exact h.done r' k id' got hr
  | read r kind id ino n got hd =>
    obtain ⟨g1, g2, rest, g3⟩ := h.reading r kind id ino got hd
    refine ⟨h.linked, ?_, ?_, h.ready, h.writing, h.synced, h.uniq, h.slots⟩
    · intro r' k id' j got' hr
      dsimp only at hr
      rw [set_apply] at hr
      split at hr
      · cases hr
        refine ⟨g1, g2, rest.drop n, ?_⟩
        show s.data ino = _
        rw [g3, List.drop_left, List.append_assoc, List.take_append_drop]
      · exact h.reading r' k id' j got' hr
    · intro r' k id' got hr
      dsimp only at hr
      rw [set_apply] at hr
      split at hr
      · cases hr
      · exact h.done r' k id' got hr
  | readEnd r kind id ino got hd he =>
    obtain ⟨g1, g2, rest, g3⟩ := h.reading r kind id ino got hd
    refine ⟨h.linked, ?_, ?_, h.ready, h.writing, h.synced, h.uniq, h.slots⟩
    · intro r' k id' j got' hr
      dsimp only at hr
      rw [set_apply] at hr
      split at hr
      · cases hr
      · exact h.reading r' k id' j got' hr
    · intro r' k id' got' hr
      dsimp only at hr
      rw [set_apply] at hr
      split at hr
      · cases hr
        rw [g3, List.drop_left] at he
        subst he
        rw [List.append_nil] at g3
        rw [← g3]; exact g2
      · exact h.done r' k id' got' hr
  | readStop r =>
    refine ⟨h.linked, ?_, ?_, h.ready, h.writing, h.synced, h.uniq, h.slots⟩
    · intro r' k id' j got' hr
      dsimp only at hr
      rw [set_apply] at hr
      split at hr
      · cases hr
      · exact h.reading r' k id' j got' hr
    · intro r' k id' got' hr
      dsimp only at hr
      rw [set_apply] at hr
      split at hr
      · cases hr
      · exact h.done r' k id' got' hr
  | crash pid =>
    refine inv_shrink h rfl rfl rfl (fun _ _ _ h => h) (fun _ _ h => h) ?_ ?_ rfl rfl
    · intro i
      dsimp only
      split
      · exact .inr rfl
      · exact .inl rfl
    · intro pid' q hne
      dsimp only at hne ⊢
      split at hne
      · exact absurd rfl hne
      · rename_i hp
        rw [set_apply, if_neg hp]
  | powerLoss ops data hsub hdata =>
    refine ⟨?_, ?_, ?_, ?_, ?_, ?_, ?_, ?_⟩
    · intro k id j hl
      have hl' : Linked s (productPath k id) j := by
        have : ∀ {p}, applyOps s.durable ops p = some j → Linked s p j := by
          intro p hp
          rcases applyOps_some hp with hp | ⟨op, ho, hp⟩
          · exact .inr (.inl hp)
          · exact .inr (.inr ⟨op, hsub.subset ho, hp⟩)
        rcases hl with hl | hl | ⟨op, ho, hl⟩
        · exact this hl
        · exact this hl
        · simp at ho
      obtain ⟨⟨h1, h2, h3⟩, h4⟩ := h.linked k id j hl'
      refine ⟨⟨h1, rfl, fun i k id b n hw => by cases hw⟩, ?_⟩
      show Good C s0 _ k id (data j)
      rw [hdata j h2]; exact h4
    · intro r k id j got hr; cases hr
    · intro r k id got hr; cases hr
    · intro i k id b hr; cases hr
    · intro i k id b j n hr; cases hr
    · intro i k id b j hr; cases hr
    · intro i k id b j n i' k' id' b' n' hr; cases hr
    · intro pid q hr; exact absurd rfl hr

theorem inv_reachable {C : Codec} {s0 s : State} (h0 : AtRest s0) (h : Reachable C s0 s) : Inv C s0 s := by
  induction h with
  | start => exact inv_init h0
  | step _ hs ih => exact inv_step ih hs

end Verif.CacheFs
