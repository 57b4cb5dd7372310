import Verif.Lemmas.CacheFs
/-!
C27: publishing a cached product is atomic under crashes of processes and of the machine.
The theorems hold for any number of processes and threads publishing, reading and removing at the same time, with no use of locks.
-/
namespace Verif.CacheFs
open Verif.Envelope Verif.Owners

/-- At every reachable moment the file at a product path is either exactly what was there at the beginning or the complete file of a
payload handed to `publish` under this kind and identity. -/
theorem c27_product_complete {C : Codec} {s0 s : State} (h0 : AtRest s0) (h : Reachable C s0 s) {k : Kind} {id : List Char} {j : Nat}
    (hd : s.dir (productPath k id) = some j) :
    (∃ j0, s0.dir (productPath k id) = some j0 ∧ s0.data j0 = s.data j) ∨
    ∃ p, (k, id, p) ∈ s.log ∧ publishBytes C k p = some (s.data j) :=
  ((inv_reachable h0 h).linked k id j (.inl hd)).2

/-- What a lookup has read, at whatever pace and whatever happened meanwhile, is either exactly the initial contents or a complete
file, which decodes to the published payload. -/
theorem c27_lookup {C : Codec} (hdg : C.Digest) (hl : C.Lossless) {s0 s : State} (h0 : AtRest s0) (h : Reachable C s0 s)
    {r : Nat} {k : Kind} {id : List Char} {got : List UInt8} (hr : s.readers r = .done k id got) :
    (∃ j0, s0.dir (productPath k id) = some j0 ∧ s0.data j0 = got) ∨
    ∃ p, (k, id, p) ∈ s.log ∧ readProduct C k got = some p := by
  rcases (inv_reachable h0 h).done r k id got hr with hg | ⟨p, hp, hb⟩
  · exact .inl hg
  · exact .inr ⟨p, hp, c25_round_trip hdg hl k p got hb⟩

/-- In particular nothing is served that was not published under the identity asked for, if the directory was empty at first. -/
theorem c27_only_published {C : Codec} (hdg : C.Digest) (hl : C.Lossless) {s0 s : State} (h0 : AtRest s0) (h : Reachable C s0 s)
    {r : Nat} {k : Kind} {id : List Char} {got p : List UInt8} (hempty : s0.dir (productPath k id) = none)
    (hr : s.readers r = .done k id got) (hp : readProduct C k got = some p) : (k, id, p) ∈ s.log := by
  rcases c27_lookup hdg hl h0 h hr with ⟨j0, hj, -⟩ | ⟨q, hq, hd⟩
  · rw [hempty] at hj; cases hj
  · rw [hd] at hp
    cases hp
    exact hq

/-! ### before or after -/

/-- Executions in which nobody removes the product file of one identity. -/
inductive Kept (C : Codec) (s0 : State) (k : Kind) (id : List Char) : State → Prop where
  | start : Kept C s0 k id s0
  | step {s s' : State} : Kept C s0 k id s → Step C s s' → s' ≠ s.change [(productPath k id, none)] → Kept C s0 k id s'

theorem Kept.reachable {C : Codec} {s0 s : State} {k : Kind} {id : List Char} (h : Kept C s0 k id s) : Reachable C s0 s := by
  induction h with
  | start => exact .start
  | step _ hs _ ih => exact .step ih hs

theorem applyOp_none {d : Path → Option Nat} {op : Op} {p : Path} (h : applyOp d op p = none) : d p = none ∨ (p, none) ∈ op := by
  unfold applyOp at h
  induction op generalizing d with
  | nil => exact .inl h
  | cons u op ih =>
    rw [List.foldl_cons] at h
    rcases ih h with h | h
    · unfold applyUpdate at h
      split at h
      · rename_i e
        obtain ⟨q, v⟩ := u
        dsimp only at e h
        rw [e, h]
        exact .inr List.mem_cons_self
      · exact .inl h
    · exact .inr (List.mem_cons_of_mem _ h)

theorem applyOps_none {d : Path → Option Nat} {ops : List Op} {p : Path} (h : applyOps d ops p = none) :
    d p = none ∨ ∃ op ∈ ops, (p, none) ∈ op := by
  unfold applyOps at h
  induction ops generalizing d with
  | nil => exact .inl h
  | cons op ops ih =>
    rw [List.foldl_cons] at h
    rcases ih h with h | ⟨o, ho, h⟩
    · rcases applyOp_none h with h | h
      · exact .inl h
      · exact .inr ⟨op, List.mem_cons_self, h⟩
    · exact .inr ⟨o, List.mem_cons_of_mem _ ho, h⟩

/-- A missing product was missing at the beginning or has been removed. -/
structure Keeps (s0 : State) (P : Path) (s : State) : Prop where
  dir : s.dir P = none → s0.dir P = none
  durable : s.durable P = none → s0.dir P = none
  pend : ∀ op ∈ s.pend, (P, none) ∉ op

theorem keeps_change {s0 s : State} {P : Path} (h : Keeps s0 P s) {op : Op} (hop : (P, none) ∉ op) : Keeps s0 P (s.change op) := by
  refine ⟨fun hn => ?_, h.durable, ?_⟩
  · rcases applyOp_none hn with hn | hn
    · exact h.dir hn
    · exact absurd hn hop
  · intro o ho
    rcases List.mem_append.mp ho with ho | ho
    · exact h.pend o ho
    · rw [List.mem_singleton] at ho; subst ho; exact hop

theorem temp_not_removed {P : Path} {k : Kind} {id : List Char} {p q : Nat} (hP : ∃ k' id', P = productPath k' id') :
    (P, (none : Option Nat)) ∉ [(tempPath k id p q, (none : Option Nat))] := by
  intro h
  rw [List.mem_singleton] at h
  obtain ⟨k', id', rfl⟩ := hP
  exact temp_ne_product _ _ _ _ _ _ (congrArg Prod.fst h).symm

theorem keeps_step {C : Codec} {s0 s s' : State} {k : Kind} {id : List Char} (h : Keeps s0 (productPath k id) s) (hs : Step C s s')
    (hne : s' ≠ s.change [(productPath k id, none)]) : Keeps s0 (productPath k id) s' := by
  have htmp : ∀ {k' id' p q}, Keeps s0 (productPath k id) (s.change [(tempPath k' id' p q, none)]) :=
    fun {k' id' p q} => keeps_change h (temp_not_removed ⟨k, id, rfl⟩)
  cases hs with
  | create i kind id' bytes hp hd =>
    have := keeps_change (op := [(tempPath kind id' i.1 i.2, some s.next)]) h (by simp)
    exact ⟨this.dir, this.durable, this.pend⟩
  | rename i kind id' bytes ino j hp hd =>
    have := keeps_change (op := [(productPath kind id', some j), (tempPath kind id' i.1 i.2, none)]) h (by
      simp only [List.mem_cons, Prod.mk.injEq, reduceCtorEq, and_false, and_true, List.not_mem_nil, or_false, false_or]
      exact fun e => temp_ne_product _ _ _ _ _ _ e.symm)
    exact ⟨this.dir, this.durable, this.pend⟩
  | writeFail i kind id' bytes ino n hp => exact ⟨htmp.dir, h.durable, htmp.pend⟩
  | renameFail i kind id' bytes ino hp => exact ⟨htmp.dir, h.durable, htmp.pend⟩
  | syncDirFail i kind id' hp => exact ⟨htmp.dir, h.durable, htmp.pend⟩
  | syncDir i kind id' hp =>
    refine ⟨h.dir, fun hn => ?_, fun op ho => h.pend op (List.mem_filter.mp ho).1⟩
    rcases applyOps_none hn with hn | ⟨op, ho, hn⟩
    · exact h.durable hn
    · exact absurd hn (h.pend op (List.mem_filter.mp ho).1)
  | unlink p =>
    apply keeps_change h
    intro hm
    rw [List.mem_singleton] at hm
    apply hne
    rw [hm]
  | powerLoss ops data hsub hdata =>
    have key : applyOps s.durable ops (productPath k id) = none → s0.dir (productPath k id) = none := by
      intro hn
      rcases applyOps_none hn with hn | ⟨op, ho, hn⟩
      · exact h.durable hn
      · exact absurd hn (h.pend op (hsub.subset ho))
    exact ⟨key, key, fun op ho => by simp at ho⟩
  | start _ _ _ _ _ _ _ => exact ⟨h.dir, h.durable, h.pend⟩
  | createFail _ _ _ _ _ => exact ⟨h.dir, h.durable, h.pend⟩
  | write _ _ _ _ _ _ _ _ _ => exact ⟨h.dir, h.durable, h.pend⟩
  | sync _ _ _ _ _ _ => exact ⟨h.dir, h.durable, h.pend⟩
  | open_ _ _ _ _ _ => exact ⟨h.dir, h.durable, h.pend⟩
  | read _ _ _ _ _ _ _ => exact ⟨h.dir, h.durable, h.pend⟩
  | readEnd _ _ _ _ _ _ _ => exact ⟨h.dir, h.durable, h.pend⟩
  | readStop _ => exact ⟨h.dir, h.durable, h.pend⟩
  | crash _ => exact ⟨h.dir, h.durable, h.pend⟩

/-- Whatever stops at whatever step: as long as nobody removes the file, the product path holds what it held before (nothing, if it
held nothing) or the complete new product. -/
theorem c27_before_or_after {C : Codec} (hdg : C.Digest) (hl : C.Lossless) {s0 s : State} (h0 : AtRest s0) {k : Kind} {id : List Char}
    {new : List UInt8} (h : Kept C s0 k id s) (hnew : ∀ p, (k, id, p) ∈ s.log → p = new) :
    (s.dir (productPath k id)).map s.data = (s0.dir (productPath k id)).map s0.data ∨
    ∃ j, s.dir (productPath k id) = some j ∧ (k, id, new) ∈ s.log ∧ readProduct C k (s.data j) = some new := by
  have hk : Keeps s0 (productPath k id) s := by
    clear hnew
    induction h with
    | start => exact ⟨fun h => h, fun h => by rw [h0.durable] at h; exact h, fun op ho => by rw [h0.pend] at ho; simp at ho⟩
    | step _ hs hne ih => exact keeps_step ih hs hne
  cases hd : s.dir (productPath k id) with
  | none => rw [hk.dir hd]; exact .inl rfl
  | some j =>
    rcases c27_product_complete h0 h.reachable hd with ⟨j0, e1, e2⟩ | ⟨p, hp, hb⟩
    · rw [e1]
      left
      simp [e2]
    · obtain rfl := hnew p hp
      exact .inr ⟨j, rfl, hp, c25_round_trip hdg hl k p _ hb⟩

/-! ### temporary files -/

theorem takeWhile_dot (a rest : List Char) (h : ∀ c ∈ a, c ≠ '.') : (a ++ '.' :: rest).takeWhile (· ≠ '.') = a := by
  induction a with
  | nil => simp
  | cons x a ih =>
    rw [List.cons_append, List.takeWhile_cons, if_pos (by simpa using h x (by simp)), ih (fun c hc => h c (by simp [hc]))]

theorem extension_append (pre ext : List Char) (hpre : pre ≠ []) (h : ∀ c ∈ ext, c ≠ '.') : extension (pre ++ '.' :: ext) = some ext := by
  unfold extension
  have e : (pre ++ '.' :: ext).reverse = ext.reverse ++ '.' :: pre.reverse := by simp
  rw [e, takeWhile_dot _ _ (fun c hc => h c (List.mem_reverse.mp hc))]
  have : 0 < pre.length := List.length_pos_iff.mpr hpre
  simp only [List.reverse_reverse, List.length_append, List.length_cons]
  rw [if_pos (by omega)]

/-- A temporary file is never the file a lookup opens, is never counted or evicted as a product, and two publications that are under
way at the same time never use the same temporary file. -/
theorem c27_temp_not_served (k : Kind) (id : List Char) (pid seq : Nat) (hv : validId id = true) :
    (∀ k' id', tempPath k id pid seq ≠ productPath k' id') ∧ scanned (tempPath k id pid seq) = false ∧
    scanned (productPath k id) = true ∧
    ∀ k' id' pid' seq', validId id' = true → tempPath k id pid seq = tempPath k' id' pid' seq' → pid = pid' ∧ seq = seq' := by
  refine ⟨fun k' id' => temp_ne_product _ _ _ _ _ _, ?_, ?_, fun k' id' pid' seq' hv' e => (temp_inj hv hv' e).2.2⟩
  · have : (tempPath k id pid seq).file = ('.' :: (id ++ ('.' :: (decimal pid ++ ('.' :: decimal seq))))) ++ '.' :: "tmp".toList := by
      simp [tempPath]
    unfold scanned
    rw [this, extension_append _ _ (by simp) (by decide)]
    decide
  · have : (productPath k id).file = id ++ '.' :: "rflsp-product".toList := by simp [productPath]
    unfold scanned
    rw [this, extension_append _ _ ?_ (by decide)]
    · decide
    · intro e
      have := valid_length hv
      rw [e] at this
      simp at this

/-! ### durability -/

/-- The directory is what the disk holds with the pending changes applied, and every change stays within one directory. -/
structure Lag (s : State) : Prop where
  lag : ∀ p, s.dir p = applyOps s.durable s.pend p
  one : ∀ op ∈ s.pend, ∀ u ∈ op, ∀ v ∈ op, u.1.kind = v.1.kind ∧ u.1.shard = v.1.shard

theorem applyOps_append (d : Path → Option Nat) (a b : List Op) : applyOps d (a ++ b) = applyOps (applyOps d a) b := List.foldl_append

theorem applyOp_untouched {d : Path → Option Nat} {op : Op} {p : Path} (h : ∀ u ∈ op, u.1 ≠ p) : applyOp d op p = d p := by
  unfold applyOp
  induction op generalizing d with
  | nil => rfl
  | cons u op ih =>
    rw [List.foldl_cons, ih (fun v hv => h v (List.mem_cons_of_mem _ hv))]
    exact if_neg fun e => h u List.mem_cons_self e.symm

theorem applyOp_congr {d d' : Path → Option Nat} {op : Op} {p : Path} (h : d p = d' p) : applyOp d op p = applyOp d' op p := by
  unfold applyOp
  induction op generalizing d d' with
  | nil => exact h
  | cons u op ih =>
    rw [List.foldl_cons, List.foldl_cons]
    apply ih
    unfold applyUpdate
    rw [h]

theorem applyOps_congr {d d' : Path → Option Nat} {ops : List Op} {p : Path} (h : d p = d' p) : applyOps d ops p = applyOps d' ops p := by
  unfold applyOps
  induction ops generalizing d d' with
  | nil => exact h
  | cons op ops ih => rw [List.foldl_cons, List.foldl_cons]; exact ih (applyOp_congr h)

theorem applyOps_filter {d : Path → Option Nat} {ops : List Op} {f : Op → Bool} {p : Path}
    (h : ∀ op ∈ ops, f op = false → ∀ u ∈ op, u.1 ≠ p) : applyOps d (ops.filter f) p = applyOps d ops p := by
  induction ops generalizing d with
  | nil => rfl
  | cons op ops ih =>
    have ih := fun d => ih (d := d) (fun o ho => h o (List.mem_cons_of_mem _ ho))
    cases hf : f op with
    | true =>
      rw [List.filter_cons_of_pos hf]
      exact ih _
    | false =>
      rw [List.filter_cons_of_neg (by simp [hf]), ih]
      show _ = applyOps (applyOp d op) ops p
      exact applyOps_congr (applyOp_untouched (h op List.mem_cons_self hf)).symm

theorem applyOps_untouched {d : Path → Option Nat} {ops : List Op} {p : Path} (h : ∀ op ∈ ops, ∀ u ∈ op, u.1 ≠ p) : applyOps d ops p = d p := by
  rw [← applyOps_filter (f := fun _ => false) (fun op ho _ => h op ho)]
  have : ops.filter (fun _ => false) = [] := List.filter_eq_nil_iff.mpr (by simp)
  rw [this]
  rfl

theorem lag_change {s : State} (h : Lag s) {op : Op} (hop : ∀ u ∈ op, ∀ v ∈ op, u.1.kind = v.1.kind ∧ u.1.shard = v.1.shard) :
    Lag (s.change op) := by
  refine ⟨fun p => ?_, fun o ho => ?_⟩
  · show applyOp s.dir op p = applyOps s.durable (s.pend ++ [op]) p
    rw [applyOps_append]
    exact applyOp_congr (h.lag p)
  · rcases List.mem_append.mp ho with ho | ho
    · exact h.one o ho
    · rw [List.mem_singleton] at ho; subst ho; exact hop

theorem inDir_iff {p : Path} {op : Op} : inDir p op = true ↔ ∃ u ∈ op, u.1.kind = p.kind ∧ u.1.shard = p.shard := by
  simp [inDir]

theorem lag_syncDir {s : State} (h : Lag s) (P : Path) :
    (∀ p, applyOps (applyOps s.durable (s.pend.filter (inDir P))) (s.pend.filter fun op => !inDir P op) p = s.dir p) ∧
    ∀ p, p.kind = P.kind → p.shard = P.shard →
      (∀ op ∈ s.pend.filter (fun op => !inDir P op), ∀ u ∈ op, u.1 ≠ p) ∧ applyOps s.durable (s.pend.filter (inDir P)) p = s.dir p := by
  have here : ∀ p, p.kind = P.kind → p.shard = P.shard →
      (∀ op ∈ s.pend.filter (fun op => !inDir P op), ∀ u ∈ op, u.1 ≠ p) ∧ applyOps s.durable (s.pend.filter (inDir P)) p = s.dir p := by
    intro p h1 h2
    constructor
    · intro op ho u hu e
      obtain ⟨-, hf⟩ := List.mem_filter.mp ho
      have : inDir P op = true := inDir_iff.mpr ⟨u, hu, by rw [e]; exact ⟨h1, h2⟩⟩
      rw [this] at hf
      simp at hf
    · rw [h.lag]
      apply applyOps_filter
      intro op ho hf u hu e
      have : inDir P op = true := inDir_iff.mpr ⟨u, hu, by rw [e]; exact ⟨h1, h2⟩⟩
      rw [this] at hf; cases hf
  refine ⟨fun p => ?_, here⟩
  by_cases hp : p.kind = P.kind ∧ p.shard = P.shard
  · obtain ⟨h1, h2⟩ := here p hp.1 hp.2
    rw [applyOps_untouched h1, h2]
  · have away : ∀ op ∈ s.pend, inDir P op = true → ∀ u ∈ op, u.1 ≠ p := by
      intro op ho hf u hu e
      obtain ⟨v, hv, h1, h2⟩ := inDir_iff.mp hf
      obtain ⟨h3, h4⟩ := h.one op ho u hu v hv
      apply hp
      rw [← e, h3, h4]
      exact ⟨h1, h2⟩
    have e1 : applyOps s.durable (s.pend.filter (inDir P)) p = s.durable p := by
      apply applyOps_untouched
      intro op ho
      obtain ⟨a, b⟩ := List.mem_filter.mp ho
      exact away op a b
    rw [applyOps_congr e1, h.lag]
    apply applyOps_filter
    intro op ho hf
    exact away op ho (by simpa using hf)

theorem lag_step {C : Codec} {s s' : State} (h : Lag s) (hs : Step C s s') : Lag s' := by
  have one : ∀ (p : Path) (v : Option Nat), Lag (s.change [(p, v)]) := by
    intro p v
    apply lag_change h
    intro u hu v hv
    rw [List.mem_singleton] at hu hv
    rw [hu, hv]
    exact ⟨rfl, rfl⟩
  cases hs with
  | create i kind id' bytes hp hd =>
    have := one (tempPath kind id' i.1 i.2) (some s.next)
    exact ⟨this.lag, this.one⟩
  | rename i kind id' bytes ino j hp hd =>
    have := lag_change (op := [(productPath kind id', some j), (tempPath kind id' i.1 i.2, none)]) h (by
      have e1 : (productPath kind id').kind = (tempPath kind id' i.1 i.2).kind := rfl
      have e2 : (productPath kind id').shard = (tempPath kind id' i.1 i.2).shard := rfl
      intro u hu v hv
      simp only [List.mem_cons, List.not_mem_nil, or_false] at hu hv
      rcases hu with rfl | rfl <;> rcases hv with rfl | rfl <;> exact ⟨rfl, rfl⟩)
    exact ⟨this.lag, this.one⟩
  | writeFail i kind id' bytes ino n hp => exact ⟨(one (tempPath kind id' i.1 i.2) none).lag, (one (tempPath kind id' i.1 i.2) none).one⟩
  | renameFail i kind id' bytes ino hp => exact ⟨(one (tempPath kind id' i.1 i.2) none).lag, (one (tempPath kind id' i.1 i.2) none).one⟩
  | syncDirFail i kind id' hp => exact ⟨(one (tempPath kind id' i.1 i.2) none).lag, (one (tempPath kind id' i.1 i.2) none).one⟩
  | syncDir i kind id' hp =>
    exact ⟨fun p => ((lag_syncDir h _).1 p).symm, fun op ho => h.one op (List.mem_filter.mp ho).1⟩
  | unlink p => exact one _ _
  | powerLoss ops data hsub hdata => exact ⟨fun p => rfl, fun op ho => by simp at ho⟩
  | start _ _ _ _ _ _ _ => exact ⟨h.lag, h.one⟩
  | createFail _ _ _ _ _ => exact ⟨h.lag, h.one⟩
  | write _ _ _ _ _ _ _ _ _ => exact ⟨h.lag, h.one⟩
  | sync _ _ _ _ _ _ => exact ⟨h.lag, h.one⟩
  | open_ _ _ _ _ _ => exact ⟨h.lag, h.one⟩
  | read _ _ _ _ _ _ _ => exact ⟨h.lag, h.one⟩
  | readEnd _ _ _ _ _ _ _ => exact ⟨h.lag, h.one⟩
  | readStop _ => exact ⟨h.lag, h.one⟩
  | crash _ => exact ⟨h.lag, h.one⟩

theorem lag_reachable {C : Codec} {s0 s : State} (h0 : AtRest s0) (h : Reachable C s0 s) : Lag s := by
  induction h with
  | start => exact ⟨fun p => by rw [h0.durable, h0.pend]; rfl, fun op ho => by rw [h0.pend] at ho; simp at ho⟩
  | step _ hs ih => exact lag_step ih hs

/-- When a publication returns, the file it left at the product path is on disk: if the machine stops right then, in whatever way, the
path still leads to the same complete contents. -/
theorem c27_durable {C : Codec} {s0 s s1 s2 : State} (h0 : AtRest s0) (h : Reachable C s0 s) {i : Nat × Nat} {k : Kind} {id : List Char}
    (hp : s.pubs i = .renamed k id)
    (h1 : s1 = { s with durable := applyOps s.durable (s.pend.filter (inDir (productPath k id))),
                        pend := s.pend.filter (fun op => !inDir (productPath k id) op), pubs := set s.pubs i .idle })
    {ops : List Op} {data : Nat → List UInt8} (hsub : ops.Sublist s1.pend) (hdata : ∀ j, s1.isSynced j = true → data j = s1.data j)
    (h2 : s2 = { s1 with data := data, isSynced := fun _ => true, dir := applyOps s1.durable ops, durable := applyOps s1.durable ops,
                         pend := [], pubs := fun _ => .idle, seq := fun _ => 0, readers := fun _ => .idle }) :
    Step C s s1 ∧ Step C s1 s2 ∧ s2.dir (productPath k id) = s.dir (productPath k id) ∧
    ∀ j, s.dir (productPath k id) = some j → s2.data j = s.data j := by
  obtain ⟨e1, e2⟩ := (lag_syncDir (lag_reachable h0 h) (productPath k id)).2 (productPath k id) rfl rfl
  subst h1
  subst h2
  refine ⟨.syncDir i k id hp, .powerLoss ops data hsub hdata, ?_, ?_⟩
  · show applyOps (applyOps s.durable (s.pend.filter (inDir (productPath k id)))) ops (productPath k id) = _
    rw [applyOps_untouched (fun op ho => e1 op (hsub.subset ho)), e2]
  · intro j hj
    exact hdata j ((inv_reachable h0 h).linked k id j (.inl hj)).1.2.1

/-! ### examples -/

def exId : List Char := List.replicate 64 'a'
/-- A cache that holds a product of `[1]` under `exId` in inode 0. -/
def exStart : State where
  data j := if j = 0 then (publishBytes plain .gem [1]).getD [] else []
  isSynced _ := true
  next := 1
  dir p := if p = productPath .gem exId then some 0 else none
  durable p := if p = productPath .gem exId then some 0 else none
  pend := []
  pubs _ := .idle
  seq _ := 0
  readers _ := .idle
  log := []

def exBytes : List UInt8 := (publishBytes plain .gem [2, 3]).getD []
def exReady : State :=
  { exStart with pubs := set exStart.pubs (7, 0) (.ready .gem exId exBytes), seq := set exStart.seq 7 1, log := [(.gem, exId, [2, 3])] }
def exWriting : State :=
  { exReady.change [(tempPath .gem exId 7 0, some 1)] with data := set exReady.data 1 [], isSynced := set exReady.isSynced 1 false, next := 2, pubs := set exReady.pubs (7, 0) (.writing .gem exId exBytes 1 0) }
/-- 61 of 62 bytes are written. -/
def exTorn : State :=
  { exWriting with data := set exWriting.data 1 (exBytes.take 61), isSynced := set exWriting.isSynced 1 false, pubs := set exWriting.pubs (7, 0) (.writing .gem exId exBytes 1 61) }
def exCrashed : State := { exTorn with pubs := fun i => if i.1 = 7 then .idle else exTorn.pubs i, seq := set exTorn.seq 7 0 }

/-- A publication that stops one byte short of the end: the partial file is there, under the temporary name, and a lookup still gets
the old product. -/
theorem c27_example :
    AtRest exStart ∧ Reachable plain exStart exCrashed ∧
    exCrashed.dir (tempPath .gem exId 7 0) = some 1 ∧ (exCrashed.data 1).length = 61 ∧ exBytes.length = 62 ∧
    exCrashed.dir (productPath .gem exId) = some 0 ∧ readProduct plain .gem (exCrashed.data 0) = some [1] ∧
    readProduct plain .gem (exCrashed.data 1) = none ∧ readProduct plain .gem exBytes = some [2, 3] := by
  have hb : publishBytes plain .gem [2, 3] = some exBytes := by decide
  refine ⟨⟨fun _ => rfl, fun _ => rfl, rfl, rfl, ?_, rfl⟩, ?_, by decide, by decide, by decide, by decide, by decide, by decide, by decide⟩
  · intro p j hj
    simp only [exStart] at hj
    split at hj
    · cases hj; exact ⟨rfl, by decide⟩
    · cases hj
  · have r1 : Reachable plain exStart exReady := .step .start (.start 7 .gem exId [2, 3] exBytes (by decide) hb)
    have r2 : Reachable plain exStart exWriting := .step r1 (.create (7, 0) .gem exId exBytes (by decide) (by decide))
    have r3 : Reachable plain exStart exTorn := .step r2 (.write (7, 0) .gem exId exBytes 1 0 61 (by decide) (by decide))
    exact .step r3 (.crash 7)

end Verif.CacheFs
