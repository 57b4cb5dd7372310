import Verif.Model.CallableBody
import Verif.Spec.CallableBody
import Verif.Props.ShapeReads
/-!
C66: the type of a call of a lambda or proc, computed from the summary of its body, describes the value of the call.
-/
namespace Verif.CallableBody
open Verif.Types Verif.ShapeReads

variable {W : World} {S : Sends W}

/-- Induction on expressions. -/
theorem Expr.ind {P : Expr → Prop} (lit : ∀ t, P (.lit t)) (param : ∀ i, P (.param i)) (capture : ∀ x, P (.capture x))
    (array : ∀ es, (∀ e ∈ es, P e) → P (.array es)) (shape : ∀ fs, (∀ f ∈ fs, P f.2) → P (.shape fs))
    (call : ∀ r m args keyArgs, P r → (∀ e ∈ args, P e) → P (.call r m args keyArgs))
    (union : ∀ es, (∀ e ∈ es, P e) → P (.union es)) : ∀ e, P e := by
  intro e
  refine Expr.rec (motive_1 := P) (motive_2 := fun l => ∀ e ∈ l, P e) (motive_3 := fun l => ∀ f ∈ l, P f.2) (motive_4 := fun f => P f.2)
    lit param capture array shape (fun r m args keyArgs h1 h2 => call r m args keyArgs h1 h2) union ?_ ?_ ?_ ?_ ?_ e
  · intro t h; simp at h
  · intro a l ha hl t ht
    rcases List.mem_cons.mp ht with rfl | ht
    · exact ha
    · exact hl t ht
  · intro t h; simp at h
  · intro a l ha hl t ht
    rcases List.mem_cons.mp ht with rfl | ht
    · exact ha
    · exact hl t ht
  · intro a b h; exact h

/-! ### lists of values -/

variable {caps : String → W.V} {ps : List W.V}

theorem vals_iff {es : List Expr} {vs : List W.V} : Vals S caps ps es vs ↔ List.Forall₂ (Val S caps ps) es vs := by
  induction es generalizing vs with
  | nil => simp [Vals]
  | cons e l ih =>
    simp only [Vals, ih]
    constructor
    · rintro ⟨v, vs', rfl, h1, h2⟩; exact .cons h1 h2
    · intro h; cases h with | cons h1 h2 => exact ⟨_, _, rfl, h1, h2⟩

theorem fieldVals_iff {fs : List (Lit × Expr)} {vs : List W.V} :
    FieldVals S caps ps fs vs ↔ List.Forall₂ (fun f v => Val S caps ps f.2 v) fs vs := by
  induction fs generalizing vs with
  | nil => simp [FieldVals]
  | cons e l ih =>
    obtain ⟨k, e⟩ := e
    simp only [FieldVals, ih]
    constructor
    · rintro ⟨v, vs', rfl, h1, h2⟩; exact .cons h1 h2
    · intro h; cases h with | cons h1 h2 => exact ⟨_, _, rfl, h1, h2⟩

theorem anyVal_iff {es : List Expr} {v : W.V} : AnyVal S caps ps es v ↔ ∃ e ∈ es, Val S caps ps e v := by
  induction es with
  | nil => simp [AnyVal]
  | cons e l ih => simp [AnyVal, ih]

/-! ### the keys of the calls in an expression are as many as the arguments -/

inductive Keyed : Expr → Prop where
  | lit (t) : Keyed (.lit t)
  | param (i) : Keyed (.param i)
  | capture (x) : Keyed (.capture x)
  | array {es} : (∀ e ∈ es, Keyed e) → Keyed (.array es)
  | shape {fs} : (∀ f ∈ fs, Keyed f.2) → Keyed (.shape fs)
  | call {r m args keyArgs} : Keyed r → (∀ e ∈ args, Keyed e) → args.length = keyArgs.length → Keyed (.call r m args keyArgs)
  | union {es} : (∀ e ∈ es, Keyed e) → Keyed (.union es)

theorem validList_mem {s : Summary} : ∀ {l : List Expr} {d n m : Nat}, validList s l d n = .ok m →
    ∀ e ∈ l, ∃ n' m', validExpr s e d n' = .ok m' := by
  intro l
  induction l with
  | nil => intro d n m _ e he; cases he
  | cons a l ih =>
    intro d n m h e he
    simp only [validList] at h
    obtain ⟨n1, h1, h2⟩ := bind_ok.mp h
    rcases List.mem_cons.mp he with rfl | he
    · exact ⟨_, _, h1⟩
    · exact ih h2 e he

theorem validFields_mem {s : Summary} : ∀ {l : List (Lit × Expr)} {d n m : Nat}, validFields s l d n = .ok m →
    ∀ f ∈ l, ∃ n' m', validExpr s f.2 d n' = .ok m' := by
  intro l
  induction l with
  | nil => intro d n m _ e he; cases he
  | cons a l ih =>
    obtain ⟨k, a⟩ := a
    intro d n m h e he
    simp only [validFields] at h
    obtain ⟨n1, h1, h2⟩ := bind_ok.mp h
    rcases List.mem_cons.mp he with rfl | he
    · exact ⟨_, _, h1⟩
    · exact ih h2 e he

theorem validExpr_keyed (s : Summary) : ∀ e d n m, validExpr s e d n = .ok m → Keyed e := by
  refine Expr.ind ?_ ?_ ?_ ?_ ?_ ?_ ?_
  · intro t d n m _; exact .lit t
  · intro t d n m _; exact .param t
  · intro t d n m _; exact .capture t
  · intro es ih d n m h
    simp only [validExpr] at h
    obtain ⟨n1, -, h⟩ := bind_ok.mp h
    refine .array (fun e he => ?_)
    obtain ⟨n', m', h⟩ := validList_mem h e he
    exact ih e he _ _ _ h
  · intro fs ih d n m h
    simp only [validExpr] at h
    obtain ⟨n1, -, h⟩ := bind_ok.mp h
    split at h
    · refine .shape (fun f hf => ?_)
      obtain ⟨n', m', h⟩ := validFields_mem h f hf
      exact ih f hf _ _ _ h
    · cases h
  · intro r me args keyArgs ihr iha d n m h
    simp only [validExpr] at h
    obtain ⟨n1, -, h⟩ := bind_ok.mp h
    split at h
    · cases h
    · rename_i hl
      obtain ⟨n2, h1, h⟩ := bind_ok.mp h
      refine .call (ihr _ _ _ h1) (fun e he => ?_) (by simpa using hl)
      obtain ⟨n', m', h⟩ := validList_mem h e he
      exact iha e he _ _ _ h
  · intro es ih d n m h
    simp only [validExpr] at h
    obtain ⟨n1, -, h⟩ := bind_ok.mp h
    split at h
    · cases h
    · refine .union (fun e he => ?_)
      obtain ⟨n', m', h⟩ := validList_mem h e he
      exact ih e he _ _ _ h

theorem validDefaults_keyed {s : Summary} : ∀ {l : List Param} {n m : Nat}, validDefaults s l n = .ok m → ∀ p ∈ l, ∀ e, p.dflt = some e → Keyed e := by
  intro l
  induction l with
  | nil => intro n m _ p hp; cases hp
  | cons a l ih =>
    intro n m h p hp e he
    simp only [validDefaults] at h
    cases hd : a.dflt with
    | none =>
      rw [hd] at h
      rcases List.mem_cons.mp hp with rfl | hp
      · rw [hd] at he; cases he
      · exact ih h p hp e he
    | some e' =>
      rw [hd] at h
      obtain ⟨n1, h1, h2⟩ := bind_ok.mp h
      rcases List.mem_cons.mp hp with rfl | hp
      · rw [hd] at he; cases he; exact validExpr_keyed s _ _ _ _ h1
      · exact ih h2 p hp e he

theorem validate_keyed {s : Summary} (h : validate s = .ok ()) : Keyed s.result ∧ ∀ p ∈ s.params, ∀ e, p.dflt = some e → Keyed e := by
  unfold validate at h
  split at h
  · cases h
  · split at h
    · cases h
    · split at h
      · cases h
      · obtain ⟨n, h1, h⟩ := bind_ok.mp h
        obtain ⟨n2, h2, h⟩ := bind_ok.mp h
        exact ⟨validExpr_keyed s _ _ _ _ h2, validDefaults_keyed h1⟩

/-! ### one call -/

theorem keyIs_head {keyArgs : List (Option Lit)} {k : W.V} {vs : List W.V} (h : KeysHold keyArgs (k :: vs)) : KeyIs W keyArgs.head?.join k := by
  intro l hl
  cases keyArgs with
  | nil => cases hl
  | cons a t =>
    cases a with
    | none => cases hl
    | some l' =>
      have hl : some l' = some l := hl
      cases hl
      have := h 0 l rfl
      exact Option.some.inj this

theorem keyIs_all {keyArgs : List (Option Lit)} {vs : List W.V} (hl : keyArgs.length = vs.length) (h : KeysHold keyArgs vs) :
    List.Forall₂ (KeyIs W) keyArgs vs := by
  induction keyArgs generalizing vs with
  | nil => cases vs with
    | nil => exact .nil
    | cons v vs => simp at hl
  | cons a l ih =>
    cases vs with
    | nil => simp at hl
    | cons v vs =>
      refine .cons (fun k hk => ?_) (ih (by simpa using hl) (fun i k hk => ?_))
      · subst hk
        exact Option.some.inj (h 0 k rfl)
      · exact h (i + 1) k hk

theorem shapeCall_sound (hw : NilApart W) {recv : Ty} {m : String} {ts : List Ty} {keyArgs : List (Option Lit)} {t : Ty}
    (h : shapeCall recv m ts keyArgs = some (.ok t)) (hr : Tidy W recv) (hts : ∀ a ∈ ts, Tidy W a) (hlen : ts.length = keyArgs.length)
    (hs : shapeOnly recv = true) :
    ∀ (v : W.V) (vs : List W.V) (x : W.V), Desc W recv v → List.Forall₂ (Desc W) ts vs → KeysHold keyArgs vs → S.send v m vs x →
      Desc W t x ∧ Tidy W t := by
  intro v vs x hd hvs hk hx
  have hh := shapeOnly_hash recv hs v hd
  unfold shapeCall at h
  split at h
  · rename_i hc
    obtain ⟨rfl, h1⟩ := hc
    injection h with h
    cases hvs with
    | nil => simp at h1
    | cons a b =>
      cases b with
      | cons _ _ => simp at h1
      | nil => exact c65_index h hr hd (keyIs_head hk) (S.index _ _ _ hh hx)
  · split at h
    · rename_i hc
      obtain ⟨rfl, h1⟩ := hc
      injection h with h
      cases hvs with
      | nil => simp at h1
      | cons a b =>
        cases b with
        | nil =>
          simp only [List.getElem?_cons_succ, List.getElem?_nil] at h
          exact c65_fetch h hr hd (keyIs_head hk) (S.fetch1 _ _ _ hh hx)
        | cons b c =>
          cases c with
          | nil =>
            simp only [List.getElem?_cons_succ, List.getElem?_cons_zero] at h
            exact c65_fetch_default h hr (hts _ (by simp)) hd (keyIs_head hk) b (S.fetch2 _ _ _ _ hh hx)
          | cons _ _ => simp at h1
    · split at h
      · rename_i hc
        obtain ⟨rfl, h1⟩ := hc
        injection h with h
        have hl : keyArgs.length = vs.length := by rw [← hlen]; exact hvs.length_eq
        cases hvs with
        | nil => exact absurd rfl h1
        | cons a b => exact c65_dig hw h hr hd (keyIs_all hl hk) (S.dig _ _ _ _ hh hx)
      · split at h
        · rename_i hc
          obtain ⟨hm, h1⟩ := hc
          injection h with h
          cases hvs with
          | nil => simp at h1
          | cons a b =>
            cases b with
            | cons _ _ => simp at h1
            | nil => exact c65_key h hr hd (keyIs_head hk) (S.key _ m _ _ hh (by simpa using hm) hx)
        · split at h
          · rename_i hc
            obtain ⟨rfl, rfl⟩ := hc
            injection h with h
            cases hvs
            exact c65_keys h hr hd (S.keys _ _ hh hx)
          · split at h
            · rename_i hc
              obtain ⟨rfl, rfl⟩ := hc
              injection h with h
              cases hvs
              exact c65_values h hr hd (S.values _ _ hh hx)
            · cases h

theorem shapeCall_tidy (hw : NilApart W) {recv : Ty} {m : String} {ts : List Ty} {keyArgs : List (Option Lit)} {t : Ty}
    (h : shapeCall recv m ts keyArgs = some (.ok t)) (hr : Tidy W recv) (hts : ∀ a ∈ ts, Tidy W a) : Tidy W t := by
  unfold shapeCall at h
  split at h
  · injection h with h
    exact (indexedRead_sound h hr).1
  · split at h
    · injection h with h
      refine (fetch_sound h hr (fun d hd => ?_)).1
      exact hts d (List.mem_of_getElem? hd)
    · split at h
      · injection h with h
        unfold dig at h
        split at h
        · cases h
        · exact (digAt_sound hw _ _ _ h hr).1
      · split at h
        · injection h with h
          exact keyPresence_tidy h
        · split at h
          · injection h with h
            exact (keys_sound h hr).1
          · split at h
            · injection h with h
              exact (values_sound h hr).1
            · cases h

/-- What is assumed of the inputs of the evaluation: tidy types that describe the values, and right resolvers. -/
structure Right (S : Sends W) (caps : String → W.V) (E : Env) (ps : List W.V) : Prop where
  apart : NilApart W
  params : List.Forall₂ (Desc W) E.params ps
  paramsTidy : ∀ t ∈ E.params, Tidy W t
  captures : ∀ (i : Nat) x t, E.names[i]? = some x → E.captures[i]? = some t → Tidy W t ∧ Desc W t (caps x)
  methods : MethodsRight S E.resolveMethod
  callables : CapturesRight S caps E.resolveCapture

theorem finishCall_sound {E : Env} (hE : Right S caps E ps) {i : Nat} {recv : Ty} {m : String} {ts : List Ty} {keyArgs : List (Option Lit)} {t : Ty}
    (h : finishCall E i recv m ts keyArgs = .ok t) (hr : Tidy W recv) (hts : ∀ a ∈ ts, Tidy W a) (hlen : ts.length = keyArgs.length) :
    Tidy W t ∧ ∀ (v : W.V) (vs : List W.V) (x : W.V), Desc W recv v → List.Forall₂ (Desc W) ts vs → KeysHold keyArgs vs → S.send v m vs x →
      Desc W t x := by
  unfold finishCall at h
  split at h
  · cases h
  · split at h
    · rename_i r hsc
      subst h
      split at hsc
      · rename_i hso
        exact ⟨shapeCall_tidy hE.apart hsc hr hts, fun v vs x hd hvs hk hx => (shapeCall_sound hE.apart hsc hr hts hlen hso v vs x hd hvs hk hx).1⟩
      · cases hsc
    · split at h
      · rename_i hf
        obtain ⟨rfl, rfl⟩ := hf
        cases h
        refine ⟨hr, fun v vs x hd hvs _ hx => ?_⟩
        cases hvs
        rw [S.freeze v x hx]; exact hd
      · split at h
        · rename_i t' hm
          cases h
          obtain ⟨h1, h2⟩ := hE.methods i recv m ts t hr hts hm
          exact ⟨h1, fun v vs x hd hvs _ hx => h2 v vs x hd hvs hx⟩
        · cases h

theorem captureOf_sound {E : Env} (hE : Right S caps E ps) {x : String} {t : Ty} (h : captureOf E x = .ok t) : Tidy W t ∧ Desc W t (caps x) := by
  unfold captureOf at h
  split at h
  · cases h
  · rename_i i hi
    split at h
    · rename_i t' ht
      cases h
      have : E.names[i]? = some x := by
        have := List.idxOf?_eq_some_iff.mp hi
        obtain ⟨hlt, he, -⟩ := this
        rw [List.getElem?_eq_getElem hlt, he]
      exact hE.captures i x t this ht
    · cases h

/-! ### expressions -/

/-- The value of a hash literal, given the types of its values. -/
theorem zip_desc {rs : List Field} {vs : List W.V} (h : List.Forall₂ (fun f v => Desc W f.2.2 v) rs vs) (hn : (rs.map (·.1)).Nodup) {f : Field}
    (hf : f ∈ rs) {x : W.V} (hx : (f.1, x) ∈ (rs.map (·.1)).zip vs) : Desc W f.2.2 x := by
  induction h with
  | nil => cases hf
  | @cons a v rs vs h hs ih =>
    simp only [List.map_cons, List.zip_cons_cons, List.mem_cons, List.nodup_cons] at hf hx hn
    rcases hf with rfl | hf
    · rcases hx with hx | hx
      · rw [(Prod.mk.inj hx).2]; exact h
      · exact absurd (List.of_mem_zip hx).1 hn.1
    · rcases hx with hx | hx
      · have := (Prod.mk.inj hx).1
        exact absurd (this ▸ List.mem_map.mpr ⟨f, hf, rfl⟩) hn.1
      · exact ih hn.2 hf hx

theorem zip_has {rs : List Field} {vs : List W.V} (h : List.Forall₂ (fun f v => Desc W f.2.2 v) rs vs) {f : Field} (hf : f ∈ rs) :
    ∃ x, (f.1, x) ∈ (rs.map (·.1)).zip vs := by
  induction h with
  | nil => cases hf
  | @cons a v rs vs h hs ih =>
    rcases List.mem_cons.mp hf with rfl | hf
    · exact ⟨v, by simp⟩
    · obtain ⟨x, hx⟩ := ih hf
      exact ⟨x, by simp [hx]⟩

/-- The statement for one expression. -/
def Good (S : Sends W) (caps : String → W.V) (E : Env) (ps : List W.V) (e : Expr) : Prop :=
  ∀ d n t m, eval E e d n = .ok (t, m) → Tidy W t ∧ ∀ v, Val S caps ps e v → Desc W t v

theorem evalList_good {E : Env} : ∀ {es : List Expr}, (∀ e ∈ es, Good S caps E ps e) → ∀ {d n ts m}, evalList E es d n = .ok (ts, m) →
    (∀ t ∈ ts, Tidy W t) ∧ List.Forall₂ (fun e t => ∀ v, Val S caps ps e v → Desc W t v) es ts := by
  intro es
  induction es with
  | nil => intro _ d n ts m h; cases h; exact ⟨by simp, .nil⟩
  | cons e l ih =>
    intro hg d n ts m h
    simp only [evalList] at h
    obtain ⟨p, h1, h⟩ := bind_ok.mp h
    obtain ⟨q, h2, h⟩ := bind_ok.mp h
    cases h
    obtain ⟨a, b⟩ := hg e (by simp) d n p.1 p.2 h1
    obtain ⟨a', b'⟩ := ih (fun e he => hg e (by simp [he])) h2
    exact ⟨fun t ht => (List.mem_cons.mp ht).elim (fun h => h ▸ a) (a' t), .cons b b'⟩

theorem evalFields_good {E : Env} : ∀ {fs : List (Lit × Expr)}, (∀ f ∈ fs, Good S caps E ps f.2) → ∀ {d n rs m}, evalFields E fs d n = .ok (rs, m) →
    (∀ r ∈ rs, Tidy W r.2.2 ∧ r.2.1 = false) ∧ List.Forall₂ (fun f r => r.1 = f.1 ∧ ∀ v, Val S caps ps f.2 v → Desc W r.2.2 v) fs rs := by
  intro fs
  induction fs with
  | nil => intro _ d n ts m h; cases h; exact ⟨by simp, .nil⟩
  | cons e l ih =>
    obtain ⟨k, e⟩ := e
    intro hg d n ts m h
    simp only [evalFields] at h
    obtain ⟨p, h1, h⟩ := bind_ok.mp h
    obtain ⟨q, h2, h⟩ := bind_ok.mp h
    cases h
    obtain ⟨a, b⟩ := hg (k, e) (by simp) d n p.1 p.2 h1
    obtain ⟨a', b'⟩ := ih (fun e he => hg e (by simp [he])) h2
    exact ⟨fun t ht => (List.mem_cons.mp ht).elim (fun h => h ▸ ⟨a, rfl⟩) (a' t), .cons ⟨rfl, b⟩ b'⟩

theorem forall₂_trans {es : List Expr} {ts : List Ty} {vs : List W.V} (h : List.Forall₂ (fun e t => ∀ v, Val S caps ps e v → Desc W t v) es ts)
    (hv : List.Forall₂ (Val S caps ps) es vs) : List.Forall₂ (Desc W) ts vs := by
  induction h generalizing vs with
  | nil => cases hv; exact .nil
  | cons a b ih => cases hv with | cons c d => exact .cons (a _ c) (ih d)

theorem fields_trans {fs : List (Lit × Expr)} {rs : List Field} {vs : List W.V}
    (h : List.Forall₂ (fun f r => r.1 = f.1 ∧ ∀ v, Val S caps ps f.2 v → Desc W r.2.2 v) fs rs)
    (hv : List.Forall₂ (fun f v => Val S caps ps f.2 v) fs vs) : List.Forall₂ (fun f v => Desc W f.2.2 v) rs vs ∧ rs.map (·.1) = fs.map (·.1) := by
  induction h generalizing vs with
  | nil => cases hv; exact ⟨.nil, rfl⟩
  | cons a b ih => cases hv with | cons c d => exact ⟨.cons (a.2 _ c) (ih d).1, by simp only [List.map_cons, a.1, (ih d).2]⟩

theorem eval_good {E : Env} (hE : Right S caps E ps) : ∀ e, Sane W e → Keyed e → Good S caps E ps e := by
  refine Expr.ind ?_ ?_ ?_ ?_ ?_ ?_ ?_
  · intro t hs _ d n u m h
    simp only [eval] at h
    split at h
    · cases h
    · split at h
      · cases h
      · cases h
        cases hs with
        | lit ht => exact ⟨ht, fun v hv => hv⟩
  · intro i _ _ d n u m h
    simp only [eval] at h
    split at h
    · cases h
    · split at h
      · rename_i t ht
        cases h
        refine ⟨hE.paramsTidy _ (List.mem_of_getElem? ht), fun v hv => ?_⟩
        simp only [Val] at hv
        have := hE.params
        obtain ⟨hl, hall⟩ := List.forall₂_iff_get.mp this
        obtain ⟨h1, e1⟩ := List.getElem?_eq_some_iff.mp ht
        obtain ⟨h2, e2⟩ := List.getElem?_eq_some_iff.mp hv
        have := hall i h1 h2
        simpa [e1, e2] using this
      · cases h
  · intro x _ _ d n u m h
    simp only [eval] at h
    split at h
    · cases h
    · obtain ⟨t, ht, h⟩ := bind_ok.mp h
      cases h
      obtain ⟨a, b⟩ := captureOf_sound hE ht
      exact ⟨a, fun v hv => by simp only [Val] at hv; rw [hv]; exact b⟩
  · intro es ih hs hk d n u m h
    simp only [eval] at h
    split at h
    · cases h
    · obtain ⟨p, hp, h⟩ := bind_ok.mp h
      cases h
      cases hs with
      | array hs =>
        cases hk with
        | array hk =>
          obtain ⟨a, b⟩ := evalList_good (fun e he => ih e he (hs e he) (hk e he)) hp
          refine ⟨.array (tidy_members (tidy_flat a) a), fun v hv => ?_⟩
          simp only [Val] at hv
          obtain ⟨ha, vs, hvs, hel⟩ := hv
          have := forall₂_trans b (vals_iff.mp hvs)
          simp only [Desc]
          refine ⟨ha, fun x hx => desc_members (tidy_flat a) (descAny_iff.mpr ?_)⟩
          exact forall₂_right this ((hel x).mp hx)
  · intro fs ih hs hk d n u m h
    simp only [eval] at h
    split at h
    · cases h
    · obtain ⟨p, hp, h⟩ := bind_ok.mp h
      split at h
      · rename_i t ht
        cases h
        cases hs with
        | shape hs =>
          cases hk with
          | shape hk =>
            obtain ⟨a, b⟩ := evalFields_good (fun e he => ih e he (hs e he) (hk e he)) hp
            obtain ⟨gs, d', rfl, hw, hperm, -⟩ := c23_well_formed ht
            have hmem : ∀ f, f ∈ gs ↔ f ∈ p.1 := fun f => hperm.mem_iff
            refine ⟨.shape (fun f hf => (a f ((hmem f).mp hf)).1) (fun _ _ e => by cases e) (fun _ _ e => by cases e) (fun _ _ e => by cases e) hw,
              fun v hv => ?_⟩
            simp only [Val] at hv
            obtain ⟨hh, vs, hvs, hent⟩ := hv
            obtain ⟨hdesc, hkeys⟩ := fields_trans b (fieldVals_iff.mp hvs)
            rw [← hkeys] at hent
            have hnd : (p.1.map (·.1)).Nodup := by
              have : (gs.map (·.1)).Nodup := (keys_nodup_iff (.refl gs)).mp (hw.sorted.imp (fun h => h.2))
              exact (hperm.map _).nodup_iff.mp this
            simp only [Desc]
            refine ⟨hh, descFields_iff.mpr (fun f hf => ⟨fun _ => ?_, fun x hx => ?_⟩), fun k x hx hno => ?_⟩
            · obtain ⟨x, hx⟩ := zip_has hdesc ((hmem f).mp hf)
              exact ⟨x, (hent _ x).mpr ⟨f.1, hx, rfl⟩⟩
            · obtain ⟨l, hl, he⟩ := (hent _ x).mp hx
              rw [← W.lit_inj _ _ he] at hl
              exact zip_desc hdesc hnd ((hmem f).mp hf) hl
            · obtain ⟨l, hl, he⟩ := (hent _ x).mp hx
              obtain ⟨f, hf, rfl⟩ := List.mem_map.mp (List.of_mem_zip hl).1
              exact absurd he (hno f ((hmem f).mpr hf))
      · cases h
  · intro r me args keyArgs ihr iha hs hk d n u m h
    simp only [eval] at h
    split at h
    · cases h
    · obtain ⟨p, hp, h⟩ := bind_ok.mp h
      cases hs with
      | call hs1 hs2 =>
        cases hk with
        | call hk1 hk2 hlen =>
          obtain ⟨a, b⟩ := evalList_good (fun e he => iha e he (hs2 e he) (hk2 e he)) hp
          split at h
          · rename_i t hc
            cases h
            unfold capturedCall at hc
            split at hc
            · rename_i x
              split at hc
              · rename_i hm
                subst hm
                obtain ⟨h1, h2⟩ := hE.callables _ _ _ _ a hc
                refine ⟨h1, fun v hv => ?_⟩
                simp only [Val] at hv
                obtain ⟨rv, avs, rfl, havs, -, hsend⟩ := hv
                exact h2 avs v (forall₂_trans b (vals_iff.mp havs)) hsend
              · cases hc
            · cases hc
          · cases h
          · obtain ⟨q, hq, h⟩ := bind_ok.mp h
            obtain ⟨t, ht, h⟩ := bind_ok.mp h
            cases h
            obtain ⟨hr, hrd⟩ := ihr hs1 hk1 _ _ _ _ hq
            have hl : p.1.length = keyArgs.length := by rw [← hlen]; exact b.length_eq.symm
            obtain ⟨h1, h2⟩ := finishCall_sound hE ht hr a hl
            refine ⟨h1, fun v hv => ?_⟩
            simp only [Val] at hv
            obtain ⟨rv, avs, hrv, havs, hkeys, hsend⟩ := hv
            exact h2 rv avs v (hrd rv hrv) (forall₂_trans b (vals_iff.mp havs)) hkeys hsend
  · intro es ih hs hk d n u m h
    simp only [eval] at h
    split at h
    · cases h
    · obtain ⟨p, hp, h⟩ := bind_ok.mp h
      split at h
      · cases h
      · cases h
        cases hs with
        | union hs =>
          cases hk with
          | union hk =>
            obtain ⟨a, b⟩ := evalList_good (fun e he => ih e he (hs e he) (hk e he)) hp
            refine ⟨tidy_mkUnion a, fun v hv => ?_⟩
            simp only [Val, anyVal_iff] at hv
            obtain ⟨e, he, hv⟩ := hv
            obtain ⟨t, ht, hd⟩ := forall₂_left b he
            exact desc_mkUnion (tidy_flat a) (descAny_iff.mpr ⟨t, ht, hd v hv⟩)

/-! ### parameters -/

theorem forall₂_append_one {ts : List Ty} {vs : List W.V} {t : Ty} {v : W.V} (h : List.Forall₂ (Desc W) ts vs) (hd : Desc W t v) :
    List.Forall₂ (Desc W) (ts ++ [t]) (vs ++ [v]) := by
  induction h with
  | nil => exact .cons hd .nil
  | cons a _ ih => exact .cons a ih

theorem right_push {E : Env} {tys : List Ty} (hE : Right S caps { E with params := tys } ps) {t : Ty} {v : W.V} (ht : Tidy W t) (hd : Desc W t v) :
    Right S caps { E with params := tys ++ [t] } (ps ++ [v]) :=
  ⟨hE.apart, forall₂_append_one hE.params hd, append_nil_tidy hE.paramsTidy ht, hE.captures, hE.methods, hE.callables⟩

/-- Filling the parameters: types and values go together. -/
theorem bindParams_sound : ∀ {params : List Param}, (∀ p ∈ params, ∀ e, p.dflt = some e → Sane W e ∧ Keyed e) →
    ∀ {E : Env} {tys : List Ty} {ps : List W.V} {args : List Ty} {vals qs : List W.V} {n : Nat} {r : List Ty × Nat},
      Right S caps { E with params := tys } ps → (∀ t ∈ args, Tidy W t) →
      List.Forall₂ (Desc W) args vals → bindParams E params args tys n = .ok r → Fill S caps ps params vals qs →
      Right S caps { E with params := r.1 } qs := by
  intro params
  induction params with
  | nil =>
    intro _ E tys ps args vals qs n r hE ht hv h hf
    simp only [bindParams] at h
    cases h
    cases hf
    exact hE
  | cons p l ih =>
    intro hd E tys ps args vals qs n r hE ht hv h hf
    have hd' : ∀ p ∈ l, ∀ e, p.dflt = some e → Sane W e ∧ Keyed e := fun q hq => hd q (by simp [hq])
    simp only [bindParams] at h
    cases hf with
    | @required _ _ _ a args' _ hk hf =>
      rw [hk] at h
      cases hv with
      | @cons t _ ts _ h1 h2 =>
        have h : bindParams E l ts (tys ++ [t]) n = .ok r := h
        exact ih hd' (right_push hE (ht t (by simp)) h1) (fun x hx => ht x (by simp [hx])) h2 h hf
    | @missing _ _ _ nil _ hk hn hf =>
      rw [hk] at h
      cases hv
      have h : bindParams E l [] (tys ++ [nilTy]) n = .ok r := h
      exact ih hd' (right_push hE tidy_nil hn) (by simp) .nil h hf
    | @optional _ _ _ a args' _ hk hf =>
      rw [hk] at h
      cases hv with
      | @cons t _ ts _ h1 h2 =>
        have h : bindParams E l ts (tys ++ [t]) n = .ok r := h
        exact ih hd' (right_push hE (ht t (by simp)) h1) (fun x hx => ht x (by simp [hx])) h2 h hf
    | @default _ _ _ e v _ hk he hval hf =>
      rw [hk] at h
      cases hv
      simp only [he] at h
      obtain ⟨q, hq, h⟩ := bind_ok.mp h
      obtain ⟨hs, hky⟩ := hd p (by simp) e he
      obtain ⟨a, b⟩ := eval_good (E := { E with params := tys }) hE e hs hky _ _ q.1 q.2 hq
      exact ih hd' (right_push hE a (b v hval)) (by simp) .nil h hf
    | @rest _ _ _ _ a _ hk ha hel hf =>
      rw [hk] at h
      have h : bindParams E l [] (tys ++ [.array (members args)]) n = .ok r := h
      refine ih hd' (right_push hE (.array (tidy_members (tidy_flat ht) ht)) ?_) (by simp) .nil h hf
      simp only [Desc]
      exact ⟨ha, fun x hx => desc_members (tidy_flat ht) (descAny_iff.mpr (forall₂_right hv ((hel x).mp hx)))⟩

theorem captureTypes_ok {f : String → Option Ty} : ∀ {l : List String} {ts : List Ty}, captureTypes f l = .ok ts →
    List.Forall₂ (fun x t => f x = some t) l ts := by
  intro l
  induction l with
  | nil => intro ts h; cases h; exact .nil
  | cons x l ih =>
    intro ts h
    simp only [captureTypes] at h
    split at h
    · cases h
    · rename_i t ht
      split at h
      · cases h
      · obtain ⟨ts', h1, h⟩ := bind_ok.mp h
        cases h
        exact .cons ht (ih h1)

/-- Arguments of which a proc with several parameters cannot be given a single array. -/
def NotSplat (W : World) (s : Summary) (args : List Ty) : Prop :=
  s.strict = true ∨ s.params.length < 2 ∨ args.length ≠ 1 ∨ ∀ t ∈ args, ∀ v : W.V, Desc W t v → ¬ W.isArr v

/-- The type computed for a call describes the value of the call, when the resolvers are right, the types of the arguments and of
the captured variables describe their values, and (for procs with several parameters) the call is not with a single array. -/
theorem c66_sound {s : Summary} {args : List Ty} {captureType : String → Option Ty}
    {resolveCapture : Nat → String → List Ty → Option (Except Reason Ty)} {resolveMethod : Nat → Ty → String → List Ty → Option Ty} {t : Ty}
    (h : instantiate s args captureType resolveCapture resolveMethod = .ok t) (hw : NilApart W)
    (hres : Sane W s.result) (hdef : ∀ p ∈ s.params, ∀ e, p.dflt = some e → Sane W e)
    (hargs : ∀ a ∈ args, Tidy W a) (hcap : ∀ x u, captureType x = some u → Tidy W u ∧ Desc W u (caps x))
    (hm : MethodsRight S resolveMethod) (hc : CapturesRight S caps resolveCapture) (hsplat : NotSplat W s args)
    {vals qs : List W.V} (hv : List.Forall₂ (Desc W) args vals) (hb : Binds S caps s vals qs) {v : W.V} (hval : Val S caps qs s.result v) :
    Desc W t v ∧ Tidy W t ∧ hasUnknown t = false := by
  unfold instantiate at h
  obtain ⟨_, hvalid, h⟩ := bind_ok.mp h
  obtain ⟨hk1, hk2⟩ := validate_keyed hvalid
  split at h
  · cases h
  · obtain ⟨cts, hcts, h⟩ := bind_ok.mp h
    split at h
    · cases h
    · simp only at h
      obtain ⟨p, hp, h⟩ := bind_ok.mp h
      obtain ⟨q, hq, h⟩ := bind_ok.mp h
      have hE : Right S caps ⟨[], s.captures, cts, resolveCapture, resolveMethod⟩ [] := by
        refine ⟨hw, .nil, by simp, ?_, hm, hc⟩
        intro i x u hx hu
        obtain ⟨hl, hall⟩ := List.forall₂_iff_get.mp (captureTypes_ok hcts)
        obtain ⟨h1, e1⟩ := List.getElem?_eq_some_iff.mp hx
        obtain ⟨h2, e2⟩ := List.getElem?_eq_some_iff.mp hu
        have := hall i h1 h2
        simp only [List.get_eq_getElem, e1, e2] at this
        exact hcap x u this
      have hfill : Fill S caps [] s.params vals qs := by
        cases hb with
        | plain _ hf => exact hf
        | @splat a es _ hs _ _ =>
          obtain ⟨hst, hlen, b, hab, harr⟩ := hs
          rcases hsplat with h1 | h1 | h1 | h1
          · rw [hst] at h1; cases h1
          · omega
          · exact absurd hv.length_eq (by simpa using h1)
          · cases hv with
            | cons hda _ =>
              cases hab
              exact absurd harr (h1 _ (by simp) _ hda)
      have hE2 := bindParams_sound (E := ⟨[], s.captures, cts, resolveCapture, resolveMethod⟩) (tys := []) (fun p hp e he => ⟨hdef p hp e he, hk2 p hp e he⟩) hE hargs hv hp hfill
      obtain ⟨ht, hd⟩ := eval_good hE2 s.result hres hk1 _ _ q.1 q.2 hq
      split at h
      · rename_i hu
        cases h
        simp only [Bool.and_eq_true, Bool.not_eq_true'] at hu
        exact ⟨hd v hval, ht, hu.1.1⟩
      · split at h <;> cases h

/-! ### limits -/

theorem countNode_ok {d n m : Nat} (h : countNode d n = .ok m) : m = n + 1 ∧ m ≤ 64 ∧ d ≤ 8 := by
  unfold countNode at h
  split at h
  · cases h
  · split at h
    · cases h
    · rename_i h1 h2
      cases h
      simp only [maxTypeDepth, maxNodes] at h1 h2
      omega

/-- What a valid expression is. -/
def ValidSpec (s : Summary) (e : Expr) : Prop := ∀ d n m, validExpr s e d n = .ok m →
  m = n + size e ∧ m ≤ 64 ∧ ∀ e' k, Within e e' k → d + k ≤ 8 ∧ match e' with
    | .param i => i < s.params.length
    | .capture x => x ∈ s.captures
    | .lit t => hasUnknown t = false
    | .call _ _ args keyArgs => args.length = keyArgs.length
    | .union es => es ≠ [] ∧ es.length ≤ 8
    | .shape fs => ascending litLe (fs.map (·.1)) = true
    | .array _ => True

theorem validList_spec {s : Summary} : ∀ {l : List Expr}, (∀ e ∈ l, ValidSpec s e) → ∀ {d n m}, validList s l d n = .ok m →
    m = n + sizeList l ∧ (n ≤ 64 → m ≤ 64) ∧ ∀ e ∈ l, ∃ n' m', validExpr s e d n' = .ok m' := by
  intro l
  induction l with
  | nil => intro _ d n m h; cases h; exact ⟨rfl, id, by simp⟩
  | cons a l ih =>
    intro hl d n m h
    have hmem := validList_mem h
    simp only [validList] at h
    obtain ⟨n1, h1, h2⟩ := bind_ok.mp h
    obtain ⟨e1, b1, -⟩ := hl a (by simp) _ _ _ h1
    obtain ⟨e2, b2, -⟩ := ih (fun e he => hl e (by simp [he])) h2
    exact ⟨by simp only [sizeList]; omega, fun _ => b2 b1, hmem⟩

theorem validFields_spec {s : Summary} : ∀ {l : List (Lit × Expr)}, (∀ f ∈ l, ValidSpec s f.2) → ∀ {d n m}, validFields s l d n = .ok m →
    m = n + sizeFields l ∧ (n ≤ 64 → m ≤ 64) ∧ ∀ f ∈ l, ∃ n' m', validExpr s f.2 d n' = .ok m' := by
  intro l
  induction l with
  | nil => intro _ d n m h; cases h; exact ⟨rfl, id, by simp⟩
  | cons a l ih =>
    obtain ⟨k, a⟩ := a
    intro hl d n m h
    have hmem := validFields_mem h
    simp only [validFields] at h
    obtain ⟨n1, h1, h2⟩ := bind_ok.mp h
    obtain ⟨e1, b1, -⟩ := hl (k, a) (by simp) _ _ _ h1
    obtain ⟨e2, b2, -⟩ := ih (fun e he => hl e (by simp [he])) h2
    exact ⟨by simp only [sizeFields]; simp only at e1; omega, fun _ => b2 b1, hmem⟩

theorem validExpr_spec (s : Summary) : ∀ e, ValidSpec s e := by
  refine Expr.ind ?_ ?_ ?_ ?_ ?_ ?_ ?_
  · intro t d n m h
    simp only [validExpr] at h
    obtain ⟨n1, h1, h⟩ := bind_ok.mp h
    obtain ⟨c1, c2, c3⟩ := countNode_ok h1
    split at h
    · cases h
    · rename_i hu
      cases h
      refine ⟨by simpa [size] using c1, c2, fun e' k hw => ?_⟩
      cases hw
      exact ⟨by omega, by simpa using hu⟩
  · intro i d n m h
    simp only [validExpr] at h
    obtain ⟨n1, h1, h⟩ := bind_ok.mp h
    obtain ⟨c1, c2, c3⟩ := countNode_ok h1
    split at h
    · cases h
    · rename_i hu
      cases h
      refine ⟨by simpa [size] using c1, c2, fun e' k hw => ?_⟩
      cases hw
      exact ⟨by omega, by simpa using hu⟩
  · intro x d n m h
    simp only [validExpr] at h
    obtain ⟨n1, h1, h⟩ := bind_ok.mp h
    obtain ⟨c1, c2, c3⟩ := countNode_ok h1
    split at h
    · rename_i hu
      cases h
      refine ⟨by simpa [size] using c1, c2, fun e' k hw => ?_⟩
      cases hw
      exact ⟨by omega, by simpa using hu⟩
    · cases h
  · intro es ih d n m h
    simp only [validExpr] at h
    obtain ⟨n1, h1, h⟩ := bind_ok.mp h
    obtain ⟨c1, c2, c3⟩ := countNode_ok h1
    obtain ⟨l1, l2, l3⟩ := validList_spec ih h
    refine ⟨by simp only [size]; omega, l2 c2, fun e' k hw => ?_⟩
    cases hw with
    | here _ => exact ⟨by omega, trivial⟩
    | array he hw =>
      obtain ⟨n', m', hv⟩ := l3 _ he
      obtain ⟨-, -, h3⟩ := ih _ he _ _ _ hv
      obtain ⟨h4, h5⟩ := h3 _ _ hw
      exact ⟨by omega, h5⟩
  · intro fs ih d n m h
    simp only [validExpr] at h
    obtain ⟨n1, h1, h⟩ := bind_ok.mp h
    obtain ⟨c1, c2, c3⟩ := countNode_ok h1
    split at h
    · rename_i hasc
      obtain ⟨l1, l2, l3⟩ := validFields_spec ih h
      refine ⟨by simp only [size]; omega, l2 c2, fun e' k hw => ?_⟩
      cases hw with
      | here _ => exact ⟨by omega, hasc⟩
      | shape he hw =>
        obtain ⟨n', m', hv⟩ := l3 _ he
        obtain ⟨-, -, h3⟩ := ih _ he _ _ _ hv
        obtain ⟨h4, h5⟩ := h3 _ _ hw
        exact ⟨by omega, h5⟩
    · cases h
  · intro r me args keyArgs ihr iha d n m h
    simp only [validExpr] at h
    obtain ⟨n1, h1, h⟩ := bind_ok.mp h
    obtain ⟨c1, c2, c3⟩ := countNode_ok h1
    split at h
    · cases h
    · rename_i hl
      obtain ⟨n2, h2, h⟩ := bind_ok.mp h
      obtain ⟨r1, r2, r3⟩ := ihr _ _ _ h2
      obtain ⟨l1, l2, l3⟩ := validList_spec iha h
      refine ⟨by simp only [size]; omega, l2 r2, fun e' k hw => ?_⟩
      cases hw with
      | here _ => exact ⟨by omega, by simpa using hl⟩
      | recv hw =>
        obtain ⟨h4, h5⟩ := r3 _ _ hw
        exact ⟨by omega, h5⟩
      | arg he hw =>
        obtain ⟨n', m', hv⟩ := l3 _ he
        obtain ⟨-, -, h3⟩ := iha _ he _ _ _ hv
        obtain ⟨h4, h5⟩ := h3 _ _ hw
        exact ⟨by omega, h5⟩
  · intro es ih d n m h
    simp only [validExpr] at h
    obtain ⟨n1, h1, h⟩ := bind_ok.mp h
    obtain ⟨c1, c2, c3⟩ := countNode_ok h1
    split at h
    · cases h
    · rename_i hb
      obtain ⟨l1, l2, l3⟩ := validList_spec ih h
      refine ⟨by simp only [size]; omega, l2 c2, fun e' k hw => ?_⟩
      cases hw with
      | here _ =>
        rw [Bool.or_eq_true, not_or, List.isEmpty_iff, decide_eq_true_eq, Nat.not_lt] at hb
        exact ⟨by omega, hb.1, hb.2⟩
      | union he hw =>
        obtain ⟨n', m', hv⟩ := l3 _ he
        obtain ⟨-, -, h3⟩ := ih _ he _ _ _ hv
        obtain ⟨h4, h5⟩ := h3 _ _ hw
        exact ⟨by omega, h5⟩

theorem validDefaults_spec {s : Summary} : ∀ {l : List Param} {n m : Nat}, validDefaults s l n = .ok m → m = n + sizeDefaults l := by
  intro l
  induction l with
  | nil => intro n m h; cases h; rfl
  | cons p l ih =>
    intro n m h
    simp only [validDefaults] at h
    cases hd : p.dflt with
    | none =>
      rw [hd] at h
      rw [ih h]
      simp [sizeDefaults, hd]
    | some e =>
      rw [hd] at h
      obtain ⟨n1, h1, h2⟩ := bind_ok.mp h
      have := (validExpr_spec s e _ _ _ h1).1
      rw [ih h2, this]
      simp [sizeDefaults, hd]; omega

/-- What the parameters of a summary must be: named, by different names, only optional ones with a default, and a rest only at the end. -/
structure GoodParams (ps : List Param) : Prop where
  named : ∀ p ∈ ps, p.name ≠ ""
  distinct : (ps.map (·.name)).Nodup
  dflt : ∀ p ∈ ps, p.dflt ≠ none ↔ p.kind = .optional
  rest : ∀ a p b, ps = a ++ p :: b → p.kind = .rest → b = []

theorem validParams_iff {ps : List Param} {seen : List String} :
    validParams seen ps = true ↔ GoodParams ps ∧ ∀ p ∈ ps, p.name ∉ seen := by
  induction ps generalizing seen with
  | nil => simp only [validParams, true_iff]; exact ⟨⟨by simp, by simp, by simp, by simp⟩, by simp⟩
  | cons p l ih =>
    have hk : ((match p.kind, p.dflt with
      | .required, none => true
      | .optional, some _ => true
      | .rest, none => l.isEmpty
      | _, _ => false) = true) ↔ ((p.dflt ≠ none ↔ p.kind = .optional) ∧ (p.kind = .rest → l = [])) := by
      cases p.kind <;> cases p.dflt <;> simp [List.isEmpty_iff]
    rw [validParams]
    simp only [Bool.and_eq_true, ih, bne_iff_ne, Bool.not_eq_true', List.contains_eq_mem, decide_eq_false_iff_not]
    constructor
    · rintro ⟨⟨⟨h1, h2⟩, hm⟩, hg, h5⟩
      obtain ⟨h3, h4⟩ := hk.mp hm
      refine ⟨⟨?_, ?_, ?_, ?_⟩, ?_⟩
      · intro q hq; rcases List.mem_cons.mp hq with rfl | hq; exacts [h1, hg.named q hq]
      · rw [List.map_cons, List.nodup_cons]
        refine ⟨fun hm => ?_, hg.distinct⟩
        obtain ⟨q, hq, e⟩ := List.mem_map.mp hm
        exact h5 q hq (by rw [e]; simp)
      · intro q hq; rcases List.mem_cons.mp hq with rfl | hq; exacts [h3, hg.dflt q hq]
      · intro a q b e hr
        cases a with
        | nil => cases e; exact h4 hr
        | cons x a => cases e; exact hg.rest a q b rfl hr
      · intro q hq
        rcases List.mem_cons.mp hq with rfl | hq
        · exact h2
        · exact fun h => h5 q hq (List.mem_cons_of_mem _ h)
    · rintro ⟨hg, h5⟩
      refine ⟨⟨⟨hg.named p (by simp), h5 p (by simp)⟩, hk.mpr ⟨hg.dflt p (by simp), fun hr => hg.rest [] p l rfl hr⟩⟩, ⟨?_, ?_, ?_, ?_⟩, ?_⟩
      · exact fun q hq => hg.named q (by simp [hq])
      · have := hg.distinct; rw [List.map_cons, List.nodup_cons] at this; exact this.2
      · exact fun q hq => hg.dflt q (by simp [hq])
      · intro a q b e hr; exact hg.rest (p :: a) q b (by rw [e]; rfl) hr
      · intro q hq hm
        rcases List.mem_cons.mp hm with e | hm
        · have := hg.distinct
          rw [List.map_cons, List.nodup_cons] at this
          exact this.1 (List.mem_map.mpr ⟨q, hq, e⟩)
        · exact h5 q (by simp [hq]) hm

/-- The parameters of a summary that is accepted are as they must be, and only other things make one be refused. -/
theorem c66_params {s : Summary} : (validate s = .ok () → GoodParams s.params) ∧ (validParams [] s.params = true ↔ GoodParams s.params) := by
  have hi : validParams [] s.params = true ↔ GoodParams s.params := by rw [validParams_iff]; simp
  refine ⟨fun h => ?_, hi⟩
  unfold validate at h
  split at h
  · cases h
  · split at h
    · cases h
    · split at h
      · cases h
      · next hp => exact hi.mp (by simpa using hp)

/-- The limits of a summary that is accepted: at most 4 parameters, 8 captures, 64 nodes (counted in body and defaults, and noted
rightly), nested at most 8 deep, unions of at most 8; parameters and captures that are used exist. -/
theorem c66_limits {s : Summary} (h : validate s = .ok ()) :
    s.params.length ≤ 4 ∧ s.captures.length ≤ 8 ∧ s.nodes = sizeDefaults s.params + size s.result ∧ s.nodes ≤ 64 ∧
    (∀ e' k, Within s.result e' k → k ≤ 8 ∧
      (∀ i, e' = .param i → i < s.params.length) ∧ (∀ x, e' = .capture x → x ∈ s.captures) ∧ (∀ es, e' = .union es → es ≠ [] ∧ es.length ≤ 8)) := by
  unfold validate at h
  split at h
  · cases h
  · rename_i hb
    split at h
    · cases h
    · split at h
      · cases h
      · obtain ⟨n, h1, h⟩ := bind_ok.mp h
        obtain ⟨n2, h2, h⟩ := bind_ok.mp h
        split at h
        · cases h
        · rename_i hn
          simp only [maxParams, maxCaptures, maxNodes, not_or, Nat.not_lt] at hb
          have hn : n2 = s.nodes := by simpa using hn
          have d := validDefaults_spec h1
          obtain ⟨a, b, c⟩ := validExpr_spec s s.result _ _ _ h2
          refine ⟨by omega, by omega, by omega, by omega, fun e' k hw => ?_⟩
          obtain ⟨c1, c2⟩ := c e' k hw
          refine ⟨by omega, ?_, ?_, ?_⟩
          · rintro i rfl; exact c2
          · rintro i rfl; exact c2
          · rintro i rfl; exact c2

/-- The statement for the number of calls. -/
def Counted (E : Env) (e : Expr) : Prop := ∀ d n t m, eval E e d n = .ok (t, m) → m = n + calls e ∧ (n ≤ 16 → m ≤ 16)

theorem evalList_counted {E : Env} : ∀ {es : List Expr}, (∀ e ∈ es, Counted E e) → ∀ {d n ts m}, evalList E es d n = .ok (ts, m) →
    m = n + callsList es ∧ (n ≤ 16 → m ≤ 16) := by
  intro es
  induction es with
  | nil => intro _ d n ts m h; cases h; exact ⟨rfl, id⟩
  | cons e l ih =>
    intro hg d n ts m h
    simp only [evalList] at h
    obtain ⟨p, h1, h⟩ := bind_ok.mp h
    obtain ⟨q, h2, h⟩ := bind_ok.mp h
    cases h
    obtain ⟨a, b⟩ := hg e (by simp) d n p.1 p.2 h1
    obtain ⟨a', b'⟩ := ih (fun e he => hg e (by simp [he])) h2
    exact ⟨by simp only [callsList]; omega, fun h => b' (b h)⟩

theorem evalFields_counted {E : Env} : ∀ {fs : List (Lit × Expr)}, (∀ f ∈ fs, Counted E f.2) → ∀ {d n ts m}, evalFields E fs d n = .ok (ts, m) →
    m = n + callsFields fs ∧ (n ≤ 16 → m ≤ 16) := by
  intro es
  induction es with
  | nil => intro _ d n ts m h; cases h; exact ⟨rfl, id⟩
  | cons e l ih =>
    obtain ⟨k, e⟩ := e
    intro hg d n ts m h
    simp only [evalFields] at h
    obtain ⟨p, h1, h⟩ := bind_ok.mp h
    obtain ⟨q, h2, h⟩ := bind_ok.mp h
    cases h
    obtain ⟨a, b⟩ := hg (k, e) (by simp) d n p.1 p.2 h1
    obtain ⟨a', b'⟩ := ih (fun e he => hg e (by simp [he])) h2
    simp only at a
    exact ⟨by simp only [callsFields]; omega, fun h => b' (b h)⟩

theorem eval_counted (E : Env) : ∀ e, Counted E e := by
  refine Expr.ind ?_ ?_ ?_ ?_ ?_ ?_ ?_
  · intro t d n u m h
    simp only [eval] at h
    split at h
    · cases h
    · split at h <;> cases h
      exact ⟨rfl, id⟩
  · intro t d n u m h
    simp only [eval] at h
    split at h
    · cases h
    · split at h <;> cases h
      exact ⟨rfl, id⟩
  · intro t d n u m h
    simp only [eval] at h
    split at h
    · cases h
    · obtain ⟨t, -, h⟩ := bind_ok.mp h
      cases h
      exact ⟨rfl, id⟩
  · intro es ih d n u m h
    simp only [eval] at h
    split at h
    · cases h
    · obtain ⟨p, hp, h⟩ := bind_ok.mp h
      cases h
      exact evalList_counted ih hp
  · intro es ih d n u m h
    simp only [eval] at h
    split at h
    · cases h
    · obtain ⟨p, hp, h⟩ := bind_ok.mp h
      split at h <;> cases h
      exact evalFields_counted ih hp
  · intro r me args keyArgs ihr iha d n u m h
    simp only [eval] at h
    split at h
    · cases h
    · rename_i hb
      simp only [maxSolve, not_or, Nat.not_lt] at hb
      obtain ⟨p, hp, h⟩ := bind_ok.mp h
      obtain ⟨a, b⟩ := evalList_counted iha hp
      split at h
      · rename_i t hc
        cases h
        have : calls r = 0 := by
          unfold capturedCall at hc
          split at hc
          · rfl
          · cases hc
        exact ⟨by simp only [calls]; omega, fun _ => b hb.2⟩
      · cases h
      · obtain ⟨q, hq, h⟩ := bind_ok.mp h
        obtain ⟨t, -, h⟩ := bind_ok.mp h
        cases h
        obtain ⟨a', b'⟩ := ihr _ _ _ _ hq
        exact ⟨by simp only [calls]; omega, fun _ => b' (b hb.2)⟩
  · intro es ih d n u m h
    simp only [eval] at h
    split at h
    · cases h
    · obtain ⟨p, hp, h⟩ := bind_ok.mp h
      split at h <;> cases h
      exact evalList_counted ih hp

theorem bindParams_counted {E : Env} : ∀ {params : List Param} {args tys : List Ty} {n : Nat} {r : List Ty × Nat},
    bindParams E params args tys n = .ok r → (n ≤ 16 → r.2 ≤ 16) ∧ r.1.length = tys.length + params.length := by
  intro params
  induction params with
  | nil => intro args tys n r h; simp only [bindParams] at h; cases h; exact ⟨id, rfl⟩
  | cons p l ih =>
    intro args tys n r h
    have fin : ∀ {args' t n'}, bindParams E l args' (tys ++ [t]) n' = .ok r → (n ≤ 16 → n' ≤ 16) →
        (n ≤ 16 → r.2 ≤ 16) ∧ r.1.length = tys.length + (p :: l).length := by
      intro args' t n' h hn
      obtain ⟨a, b⟩ := ih h
      refine ⟨fun h => a (hn h), ?_⟩
      rw [b, List.length_append, List.length_singleton, List.length_cons]; omega
    simp only [bindParams] at h
    split at h
    · exact fin h id
    · split at h
      · exact fin h id
      · split at h
        · obtain ⟨q, hq, h⟩ := bind_ok.mp h
          exact fin h (eval_counted _ _ _ _ q.1 q.2 hq).2
        · exact fin h id
    · exact fin h id

theorem anyTooDeep_false {ts : List Ty} {d : Nat} (h : anyTooDeep ts d = false) : ∀ t ∈ ts, tooDeep t d = false := by
  induction ts with
  | nil => simp
  | cons a l ih =>
    simp only [anyTooDeep, Bool.or_eq_false_iff] at h
    intro t ht
    rcases List.mem_cons.mp ht with rfl | ht
    · exact h.1
    · exact ih h.2 t ht

theorem fieldTooDeep_false {fs : List Field} {d : Nat} (h : fieldTooDeep fs d = false) : ∀ f ∈ fs, tooDeep f.2.2 d = false := by
  induction fs with
  | nil => simp
  | cons a l ih =>
    obtain ⟨k, o, t⟩ := a
    simp only [fieldTooDeep, Bool.or_eq_false_iff] at h
    intro t ht
    rcases List.mem_cons.mp ht with rfl | ht
    · exact h.1
    · exact ih h.2 t ht

theorem anyTooWide_false {ts : List Ty} (h : anyTooWide ts = false) : ∀ t ∈ ts, tooWide t = false := by
  induction ts with
  | nil => simp
  | cons a l ih =>
    simp only [anyTooWide, Bool.or_eq_false_iff] at h
    intro t ht
    rcases List.mem_cons.mp ht with rfl | ht
    · exact h.1
    · exact ih h.2 t ht

theorem fieldTooWide_false {fs : List Field} (h : fieldTooWide fs = false) : ∀ f ∈ fs, tooWide f.2.2 = false := by
  induction fs with
  | nil => simp
  | cons a l ih =>
    obtain ⟨k, o, t⟩ := a
    simp only [fieldTooWide, Bool.or_eq_false_iff] at h
    intro t ht
    rcases List.mem_cons.mp ht with rfl | ht
    · exact h.1
    · exact ih h.2 t ht

theorem deep_spec {t u : Ty} {k : Nat} (hi : Inside t u k) : ∀ d, tooDeep t d = false → d + k ≤ 8 := by
  have fits : ∀ {d : Nat}, decide (d > maxTypeDepth) = false → d ≤ 8 := by
    intro d h
    exact Nat.le_of_not_lt (of_decide_eq_false h)
  induction hi with
  | here t =>
    intro d h
    cases t <;> simp only [tooDeep, Bool.or_eq_false_iff] at h <;>
      first | exact fits h | exact fits h.1 | exact fits h.1.1
  | array hm _ ih =>
    intro d h
    simp only [tooDeep, Bool.or_eq_false_iff] at h
    have := ih _ (anyTooDeep_false h.2 _ hm); omega
  | union hm _ ih =>
    intro d h
    simp only [tooDeep, Bool.or_eq_false_iff] at h
    have := ih _ (anyTooDeep_false h.2 _ hm); omega
  | key hm _ ih =>
    intro d h
    simp only [tooDeep, Bool.or_eq_false_iff] at h
    have := ih _ (anyTooDeep_false h.1.2 _ hm); omega
  | value hm _ ih =>
    intro d h
    simp only [tooDeep, Bool.or_eq_false_iff] at h
    have := ih _ (anyTooDeep_false h.2 _ hm); omega
  | field hm _ ih =>
    intro d h
    simp only [tooDeep, Bool.or_eq_false_iff] at h
    have := ih _ (fieldTooDeep_false h.1.2 _ hm); omega
  | restKey _ ih =>
    intro d h
    simp only [tooDeep, restTooDeep, Bool.or_eq_false_iff] at h
    have := ih _ h.2.1; omega
  | restValue _ ih =>
    intro d h
    simp only [tooDeep, restTooDeep, Bool.or_eq_false_iff] at h
    have := ih _ h.2.2; omega

theorem wide_spec {t u : Ty} {k : Nat} (hi : Inside t u k) : tooWide t = false → ∀ us, u = .union us → us.length ≤ 8 := by
  induction hi with
  | here t =>
    rintro h us rfl
    simp only [tooWide, Bool.or_eq_false_iff] at h
    exact Nat.le_of_not_lt (of_decide_eq_false h.1)
  | array hm _ ih =>
    intro h
    simp only [tooWide] at h
    exact ih (anyTooWide_false h _ hm)
  | union hm _ ih =>
    intro h
    simp only [tooWide, Bool.or_eq_false_iff] at h
    exact ih (anyTooWide_false h.2 _ hm)
  | key hm _ ih =>
    intro h
    simp only [tooWide, Bool.or_eq_false_iff] at h
    exact ih (anyTooWide_false h.1 _ hm)
  | value hm _ ih =>
    intro h
    simp only [tooWide, Bool.or_eq_false_iff] at h
    exact ih (anyTooWide_false h.2 _ hm)
  | field hm _ ih =>
    intro h
    simp only [tooWide, Bool.or_eq_false_iff] at h
    exact ih (fieldTooWide_false h.1 _ hm)
  | restKey _ ih =>
    intro h
    simp only [tooWide, restTooWide, Bool.or_eq_false_iff] at h
    exact ih h.2.1
  | restValue _ ih =>
    intro h
    simp only [tooWide, restTooWide, Bool.or_eq_false_iff] at h
    exact ih h.2.2

/-- The limits of an evaluation that answers: the summary is valid, the call has an admissible number of arguments, at most 16 calls
are evaluated, and the answer is a type without unknown parts, nested at most 8 deep, with unions of at most 8. -/
theorem c66_answer_limits {s : Summary} {args : List Ty} {captureType : String → Option Ty}
    {resolveCapture : Nat → String → List Ty → Option (Except Reason Ty)} {resolveMethod : Nat → Ty → String → List Ty → Option Ty} {t : Ty}
    (h : instantiate s args captureType resolveCapture resolveMethod = .ok t) :
    validate s = .ok () ∧ calls s.result ≤ 16 ∧ (∀ a ∈ args, hasUnknown a = false) ∧
    (s.strict = true → (s.params.filter fun p => p.kind = .required).length ≤ args.length ∧
      ((∀ p ∈ s.params, p.kind ≠ .rest) → args.length ≤ s.params.length)) ∧
    (∀ x ∈ s.captures, ∃ u, captureType x = some u ∧ hasUnknown u = false) ∧
    hasUnknown t = false ∧ ∀ u k, Inside t u k → k ≤ 8 ∧ ∀ us, u = .union us → us.length ≤ 8 := by
  unfold instantiate at h
  obtain ⟨_, hvalid, h⟩ := bind_ok.mp h
  split at h
  · cases h
  · rename_i hargs
    obtain ⟨cts, hcts, h⟩ := bind_ok.mp h
    split at h
    · cases h
    · rename_i har
      simp only at h
      obtain ⟨p, hp, h⟩ := bind_ok.mp h
      obtain ⟨q, hq, h⟩ := bind_ok.mp h
      refine ⟨hvalid, ?_, ?_, ?_, ?_, ?_⟩
      · have h1 := (bindParams_counted hp).1 (by omega)
        obtain ⟨h2, h3⟩ := eval_counted _ _ _ _ q.1 q.2 hq
        have := h3 h1
        omega
      · intro a ha
        simp only [List.any_eq_true, not_exists, not_and, Bool.not_eq_true] at hargs
        exact hargs a ha
      · intro hs
        simp only [arityRefused, hs, Bool.true_and, Bool.or_eq_true, decide_eq_true_eq, Bool.and_eq_true, Bool.not_eq_true', not_or,
          not_and, Nat.not_lt] at har
        refine ⟨har.1, fun hno => ?_⟩
        have hle := har.2 (by
          simp only [List.any_eq_false, decide_eq_true_eq]
          exact hno)
        have count : ∀ l : List Param, (l.filter fun p => p.kind = .required).length + (l.filter fun p => p.kind = .optional).length ≤ l.length := by
          intro l
          induction l with
          | nil => simp
          | cons a l ih =>
            rcases ha : a.kind with _ | _ | _ <;> simp [List.filter_cons, ha] <;> omega
        exact Nat.le_trans hle (count s.params)
      · have : ∀ {l : List String} {ts : List Ty}, captureTypes captureType l = .ok ts → ∀ x ∈ l, ∃ u, captureType x = some u ∧ hasUnknown u = false := by
          intro l
          induction l with
          | nil => intro ts _ x hx; cases hx
          | cons y l ih =>
            intro ts h x hx
            simp only [captureTypes] at h
            split at h
            · cases h
            · rename_i u hu
              split at h
              · cases h
              · rename_i hk
                obtain ⟨ts', h1, -⟩ := bind_ok.mp h
                rcases List.mem_cons.mp hx with rfl | hx
                · exact ⟨u, hu, by simpa using hk⟩
                · exact ih h1 x hx
        exact this hcts
      · split at h
        · rename_i hu
          cases h
          simp only [Bool.and_eq_true, Bool.not_eq_true'] at hu
          refine ⟨hu.1.1, fun u k hi => ⟨?_, wide_spec hi hu.1.2⟩⟩
          have := deep_spec hi 0 hu.2
          omega
        · split at h <;> cases h

/-! ### examples -/

/-- Calls that do what is known of hashes and `freeze`, and nothing else. -/
def sends1 : Sends world1 where
  send v m args x := (world1.isHash v ∧ m = "[]" ∧ ∃ k, args = [k] ∧ Got world1 v k x) ∨ (m = "freeze" ∧ args = [] ∧ x = v)
  index v k x _ h := by
    rcases h with ⟨-, -, k', hk, hg⟩ | ⟨hm, -⟩
    · obtain rfl := (List.cons.inj hk).1; exact hg
    · exact absurd hm (by decide)
  fetch1 v k x _ h := by
    rcases h with ⟨-, hm, -⟩ | ⟨hm, -⟩ <;> exact absurd hm (by decide)
  fetch2 v k d x _ h := by
    rcases h with ⟨-, hm, -⟩ | ⟨hm, -⟩ <;> exact absurd hm (by decide)
  dig v k ks x _ h := by
    rcases h with ⟨-, hm, -⟩ | ⟨hm, -⟩ <;> exact absurd hm (by decide)
  key v m k x _ hm h := by
    rcases h with ⟨-, rfl, -⟩ | ⟨rfl, -⟩ <;> exact absurd hm (by decide)
  keys v x _ h := by
    rcases h with ⟨-, hm, -⟩ | ⟨hm, -⟩ <;> exact absurd hm (by decide)
  values v x _ h := by
    rcases h with ⟨-, hm, -⟩ | ⟨hm, -⟩ <;> exact absurd hm (by decide)
  freeze v x h := by
    rcases h with ⟨-, hm, -⟩ | ⟨-, -, h⟩
    · exact absurd hm (by decide)
    · exact h

def noCapture : String → Option Ty := fun _ => none
def noCall : Nat → String → List Ty → Option (Except Reason Ty) := fun _ _ _ => none
/-- `to_s` gives a String. -/
def toS : Nat → Ty → String → List Ty → Option Ty := fun _ _ m ts => if m = "to_s" ∧ ts = [] then some stringTy else none

def req (x : String) : Param := ⟨x, .required, none⟩
def opt (x : String) (e : Expr) : Param := ⟨x, .optional, some e⟩
def restP (x : String) : Param := ⟨x, .rest, none⟩

/-- `->(v) { v.to_s }`, `->(h) { h[:a] }`, `->(a, b = a.to_s, *c) { [a, b] }`, `-> { { a: x, b: x.to_s } }` with `x` captured, and
`->(a) { a ? a : "s" }`. -/
theorem c66_example :
    instantiate ⟨true, [req "v"], [], .call (.param 0) "to_s" [] [], 2⟩ [intTy] noCapture noCall toS = .ok stringTy ∧
    instantiate ⟨true, [req "h"], [], .call (.param 0) "[]" [.lit symbolTy] [some symA], 3⟩ [.shape [(symA, false, intTy)] none false false 1] noCapture noCall toS = .ok intTy ∧
    instantiate ⟨true, [req "a", opt "b" (.call (.param 0) "to_s" [] []), restP "c"], [], .array [.param 0, .param 1], 5⟩ [intTy] noCapture noCall toS
      = .ok (.array [intTy, stringTy]) ∧
    instantiate ⟨true, [req "a", opt "b" (.call (.param 0) "to_s" [] []), restP "c"], [], .param 2, 3⟩ [intTy, intTy, stringTy, symbolTy] noCapture noCall toS
      = .ok (.array [stringTy, symbolTy]) ∧
    instantiate ⟨true, [], ["x"], .shape [(symA, .capture "x"), (symB, .call (.capture "x") "to_s" [] [])], 4⟩ []
      (fun x => if x = "x" then some intTy else none) noCall toS = .ok (.shape [(symA, false, intTy), (symB, false, stringTy)] none false false 1) ∧
    instantiate ⟨true, [req "a"], [], .union [.param 0, .lit stringTy], 3⟩ [intTy] noCapture noCall toS = .ok (.union [intTy, stringTy]) := by
  decide +kernel

/-- Refusals: a lambda with too few or too many arguments, a capture that is not known, a method that is not known, an unknown type,
a wrong node count, a parameter that is not there; a proc pads with nil and drops what is too much. -/
theorem c66_example_refused :
    instantiate ⟨true, [req "v"], [], .param 0, 1⟩ [] noCapture noCall toS = .err .input ∧
    instantiate ⟨true, [req "v"], [], .param 0, 1⟩ [intTy, intTy] noCapture noCall toS = .err .input ∧
    instantiate ⟨true, [], ["x"], .capture "x", 1⟩ [] noCapture noCall toS = .err .capture ∧
    instantiate ⟨true, [req "v"], [], .call (.param 0) "foo" [] [], 2⟩ [intTy] noCapture noCall toS = .err .methodReturn ∧
    instantiate ⟨true, [req "v"], [], .param 0, 1⟩ [.unknown] noCapture noCall toS = .err .input ∧
    instantiate ⟨true, [req "v"], [], .param 0, 2⟩ [intTy] noCapture noCall toS = .err .unsupported ∧
    instantiate ⟨true, [req "v"], [], .param 1, 1⟩ [intTy] noCapture noCall toS = .err .unsupported ∧
    instantiate ⟨false, [req "v"], [], .param 0, 1⟩ [] noCapture noCall toS = .ok nilTy ∧
    instantiate ⟨false, [req "v"], [], .param 0, 1⟩ [intTy, stringTy] noCapture noCall toS = .ok intTy := by
  decide +kernel

/-- A call of `->(h) { h[:a] }` that the theorem speaks of: the value is the one stored, and is described. -/
theorem c66_example_value :
    let h : world1.V := V1.hash [(.lit symA, .int)]
    let s : Summary := ⟨true, [req "h"], [], .call (.param 0) "[]" [.lit symbolTy] [some symA], 3⟩
    Binds sends1 (fun _ => V1.nil) s [h] [h] ∧ Val sends1 (fun _ => V1.nil) [h] s.result V1.int := by
  refine ⟨.plain (by rintro ⟨⟨h, -⟩, -⟩; exact absurd h (by decide)) (.required rfl .done), ?_⟩
  refine ⟨_, [V1.lit symA], rfl, ⟨_, _, rfl, ?_, rfl⟩, ?_, .inl ⟨⟨_, rfl⟩, rfl, _, rfl, .inl ⟨_, rfl, by simp⟩⟩⟩
  · exact .inl rfl
  · intro i l hi
    match i, hi with
    | 0, hi => cases hi; rfl
    | i + 1, hi => cases hi

/-- A proc takes a single array apart, and the typing does not know it: `proc { |a, b| a }.call([1])` gives 1, but the type is that of
the whole array (inference/callable_body.rs L83-121). -/
theorem c66_proc_array_fails :
    let s : Summary := ⟨false, [req "a", req "b"], [], .param 0, 1⟩
    instantiate s [.array [intTy]] noCapture noCall toS = .ok (.array [intTy]) ∧
    ∃ (a v : world1.V) (qs : List world1.V), Desc world1 (.array [intTy]) a ∧ Binds sends1 (fun _ => V1.nil) s [a] qs ∧
      Val sends1 (fun _ => V1.nil) qs s.result v ∧ ¬ Desc world1 (.array [intTy]) v := by
  refine ⟨by decide +kernel, V1.arr [.int], V1.int, [V1.int, V1.nil], ?_, .splat (es := [V1.int]) ⟨rfl, by decide, _, rfl, ⟨_, rfl⟩⟩ ?_
    (.required rfl (.missing rfl (.inl rfl) .done)), rfl, ?_⟩
  · simp only [Desc]
    refine ⟨⟨_, rfl⟩, ?_⟩
    rintro x ⟨l, h, hx⟩
    cases h
    rw [List.mem_singleton.mp hx]
    exact .inl (.inl rfl)
  · intro x
    constructor
    · rintro ⟨l, h, hx⟩; cases h; exact hx
    · intro hx; exact ⟨_, rfl, hx⟩
  · simp only [Desc]
    rintro ⟨⟨l, h⟩, -⟩
    cases h

end Verif.CallableBody
