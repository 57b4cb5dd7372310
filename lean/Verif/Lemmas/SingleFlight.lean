import Verif.Model.SingleFlight
import Verif.Lemmas.Common
import Mathlib.Data.List.Nodup
namespace Verif.SingleFlight

variable {K V E : Type}

theorem getElem?_modify_eq {α : Type} {l : List α} {i : Nat} {x : α} (g : α → α) (h : l[i]? = some x) : (l.modify i g)[i]? = some (g x) := by
  rw [List.getElem?_modify]; simp [h]

theorem getElem?_modify_ne {α : Type} {l : List α} {i j : Nat} (g : α → α) (h : i ≠ j) : (l.modify i g)[j]? = l[j]? := by
  rw [List.getElem?_modify]; simp [h]

theorem getElem?_modify_some {α : Type} {l : List α} {i j : Nat} {g : α → α} {y : α} (h : (l.modify i g)[j]? = some y) :
    (i = j ∧ ∃ x, l[j]? = some x ∧ y = g x) ∨ (i ≠ j ∧ l[j]? = some y) := by
  by_cases hij : i = j
  · subst hij
    rw [List.getElem?_modify] at h
    simp only [if_true] at h
    cases hx : l[i]? with
    | none => rw [hx] at h; simp at h
    | some x => rw [hx] at h; simp at h; exact Or.inl ⟨rfl, x, rfl, h.symm⟩
  · rw [getElem?_modify_ne g hij] at h
    exact Or.inr ⟨hij, h⟩

theorem countP_modify {α : Type} {l : List α} {i : Nat} {x : α} (p : α → Bool) (g : α → α) (h : l[i]? = some x) :
    (l.modify i g).countP p + (if p x then 1 else 0) = l.countP p + (if p (g x) then 1 else 0) := by
  induction l generalizing i with
  | nil => simp at h
  | cons a l ih =>
    cases i with
    | zero =>
      simp at h
      subst h
      simp only [List.modify_zero_cons, List.countP_cons]
      omega
    | succ i =>
      simp at h
      simp only [List.modify_succ_cons, List.countP_cons]
      have := ih h
      omega

theorem countP_modify_same {α : Type} {l : List α} {i : Nat} (p : α → Bool) (g : α → α) (h : ∀ x, l[i]? = some x → p (g x) = p x) :
    (l.modify i g).countP p = l.countP p := by
  cases hx : l[i]? with
  | none =>
    have : l.modify i g = l := by
      apply List.ext_getElem?
      intro j
      rw [List.getElem?_modify]
      by_cases hij : i = j
      · subst hij; simp [hx]
      · simp [hij]
    rw [this]
  | some x =>
    have h1 := countP_modify p g hx
    rw [h x hx] at h1
    omega

/-- Flight `f` is the entry of its key. -/
def InMap (s : State K V E) (f : Nat) (fl : Flight K V E) : Prop := (⟨fl.key, f, fl.generation⟩ : Entry K) ∈ s.entries

def NotInMap (s : State K V E) (f : Nat) : Prop := ∀ e ∈ s.entries, e.flight ≠ f

/-- What holds of one flight. -/
def FlightOk (cfg : Config K V E) (s : State K V E) (f : Nat) (fl : Flight K V E) : Prop :=
  fl.generation = f + 1 ∧ (s.lock = some f ↔ fl.stage = .evicting) ∧
  match fl.stage with
  | .created | .running => fl.returned = none ∧ fl.cell = none ∧ fl.notified = false ∧ InMap s f fl
  | .returned | .counted => fl.returned ≠ none ∧ fl.cell = none ∧ fl.notified = false ∧ InMap s f fl
  | .removed => cfg.mode = .blocking ∧ fl.returned ≠ none ∧ isOk fl.returned = false ∧ fl.cell = none ∧ fl.notified = false ∧ NotInMap s f
  | .set => cfg.mode = .async ∧ fl.returned ≠ none ∧ fl.cell = fl.returned ∧ fl.notified = false
  | .notified | .evicting => fl.returned ≠ none ∧ fl.cell = fl.returned ∧ fl.notified = true ∧
      (cfg.mode = .blocking → isOk fl.cell = false → NotInMap s f)∧ (fl.stage = .evicting → cfg.mode = .async → isOk fl.cell = true)
  | .processed => fl.returned ≠ none ∧ fl.cell = fl.returned ∧ fl.notified = true ∧ (isOk fl.cell = false → NotInMap s f)

/-- What holds of one caller. -/
def CallerOk (cfg : Config K V E) (s : State K V E) (c : Caller K V E) : Prop :=
  match c.phase with
  | .counted | .abandoned => True
  | .owner f => ∃ fl, s.flights[f]? = some fl ∧ fl.key = c.key ∧ fl.stage = .created
  | .producing f => ∃ fl, s.flights[f]? = some fl ∧ fl.key = c.key ∧ fl.stage ≠ .created ∧ cfg.mode = .blocking
  | .waiting f => ∃ fl, s.flights[f]? = some fl ∧ fl.key = c.key
  | .armed f seen => ∃ fl, s.flights[f]? = some fl ∧ fl.key = c.key ∧ (seen = true → fl.cell ≠ none)
  | .asleep f seen => ∃ fl, s.flights[f]? = some fl ∧ fl.key = c.key ∧ seen = false
  | .done f r => ∃ fl, s.flights[f]? = some fl ∧ fl.key = c.key ∧ fl.cell = some r

def EntryOk (s : State K V E) (e : Entry K) : Prop := ∃ fl, s.flights[e.flight]? = some fl ∧ fl.key = e.key ∧ fl.generation = e.generation

/-- The completed entries respect the limits. -/
def WithinLimits (cfg : Config K V E) (s : State K V E) : Prop :=
  ∀ maxEntries maxWeight, cfg.limits = some (maxEntries, maxWeight) →
    (s.entries.filter (fun e => okAt s e.flight)).length ≤ maxEntries ∧
    ((s.entries.filter (fun e => okAt s e.flight)).map (fun e => weightAt cfg s e.flight)).sum ≤ maxWeight

/-- No successful completion is still being processed. -/
def Quiet (s : State K V E) : Prop := ∀ (f : Nat) (fl : Flight K V E), s.flights[f]? = some fl → isOk fl.cell = true → fl.stage = .processed

def isCounted (c : Caller K V E) : Bool := match c.phase with | .counted => true | _ => false
def notCreated (fl : Flight K V E) : Bool := fl.stage ≠ .created
def failureCounted (fl : Flight K V E) : Bool :=
  !isOk fl.returned && (match fl.stage with | .created | .running | .returned => false | _ => true)

structure Inv (cfg : Config K V E) (s : State K V E) : Prop where
  keys : (s.entries.map (·.key)).Nodup
  entries : ∀ e ∈ s.entries, EntryOk s e
  flights : ∀ (f : Nat) (fl : Flight K V E), s.flights[f]? = some fl → FlightOk cfg s f fl
  callers : ∀ (i : Nat) (c : Caller K V E), s.callers[i]? = some c → CallerOk cfg s c
  owners : ∀ (i j : Nat) (ci cj : Caller K V E) (f : Nat), s.callers[i]? = some ci → s.callers[j]? = some cj → ci.phase = .owner f → cj.phase = .owner f → i = j
  lockValid : ∀ f, s.lock = some f → cfg.limits ≠ none ∧ ∃ fl, s.flights[f]? = some fl
  base : ∀ f, s.lock = some f → ∀ e ∈ s.entries, okAt s e.flight = true →
    e.flight ∈ s.base ∨ ∃ fl, s.flights[e.flight]? = some fl ∧ (fl.stage = .set ∨ fl.stage = .notified)
  limits : Quiet s → WithinLimits cfg s
  generation : s.nextGeneration = s.flights.length
  lookups : s.lookups = s.hits + s.joined + s.misses + s.callers.countP isCounted
  misses : s.misses = s.flights.length
  producers : s.producers = s.flights.countP notCreated
  failures : s.failures = s.flights.countP failureCounted

theorem inv_init (cfg : Config K V E) : Inv cfg (init : State K V E) := by
  constructor <;> simp [init, Quiet, WithinLimits]

theorem entry_unique {cfg : Config K V E} {s : State K V E} (h : Inv cfg s) {e e' : Entry K} (he : e ∈ s.entries) (he' : e' ∈ s.entries)
    (hk : e.key = e'.key) : e = e' := List.inj_on_of_nodup_map h.keys he he' hk

theorem entry_flight_key {cfg : Config K V E} {s : State K V E} (h : Inv cfg s) {e : Entry K} (he : e ∈ s.entries) {fl : Flight K V E}
    (hf : s.flights[e.flight]? = some fl) : e.key = fl.key ∧ e.generation = fl.generation := by
  obtain ⟨fl', hf', hk, hg⟩ := h.entries e he
  rw [hf] at hf'
  cases hf'
  exact ⟨hk.symm, hg.symm⟩

theorem entry_unique_flight {cfg : Config K V E} {s : State K V E} (h : Inv cfg s) {e e' : Entry K} (he : e ∈ s.entries) (he' : e' ∈ s.entries)
    (hk : e.flight = e'.flight) : e = e' := by
  obtain ⟨fl, hf, hkey, -⟩ := h.entries e he
  obtain ⟨fl', hf', hkey', -⟩ := h.entries e' he'
  rw [hk, hf'] at hf
  cases hf
  exact entry_unique h he he' (by rw [← hkey, ← hkey'])

theorem removeIfOwned_sublist [DecidableEq K] (es : List (Entry K)) (k : K) (f : Nat) : (removeIfOwned es k f).Sublist es := by
  unfold removeIfOwned
  split
  · split
    · exact List.filter_sublist
    · exact List.Sublist.refl _
  · exact List.Sublist.refl _

theorem mem_removeIfOwned [DecidableEq K] {cfg : Config K V E} {s : State K V E} (h : Inv cfg s) {f : Nat} {fl : Flight K V E}
    (hf : s.flights[f]? = some fl) (e : Entry K) : e ∈ removeIfOwned s.entries fl.key f ↔ e ∈ s.entries ∧ e.flight ≠ f := by
  have hkf : ∀ x ∈ s.entries, x.flight = f → x.key = fl.key := by
    intro x hx hxf
    subst hxf
    exact (entry_flight_key h hx hf).1
  unfold removeIfOwned
  split
  · rename_i cur hcur
    have hmem := List.mem_of_find?_eq_some hcur
    have hck : cur.key = fl.key := by simpa using List.find?_some hcur
    split
    · rename_i hcf
      simp only [List.mem_filter, decide_eq_true_eq]
      constructor
      · rintro ⟨he, hk⟩
        exact ⟨he, fun hef => hk (hkf e he hef)⟩
      · rintro ⟨he, hef⟩
        refine ⟨he, fun hk => hef ?_⟩
        rw [entry_unique h he hmem (by rw [hk, hck]), hcf]
    · rename_i hcf
      constructor
      · intro he
        refine ⟨he, fun hef => hcf ?_⟩
        rw [← entry_unique h he hmem (by rw [hkf e he hef, hck]), hef]
      · exact fun h => h.1
  · rename_i hnone
    rw [List.find?_eq_none] at hnone
    constructor
    · intro he
      refine ⟨he, fun hef => ?_⟩
      exact hnone e he (by simpa using hkf e he hef)
    · exact fun h => h.1

theorem Inv.sum_le {α : Type} {l l' : List α} (h : l.Sublist l') (w : α → Nat) : (l.map w).sum ≤ (l'.map w).sum := by
  induction h with
  | slnil => simp
  | cons a _ ih => simp; omega
  | cons_cons a _ ih => simp; omega

/-- If the same flights are `Ok` with the same weights and the map only shrank, the limits still hold. -/
theorem within_shrink {cfg : Config K V E} {s s' : State K V E} (hsub : s'.entries.Sublist s.entries)
    (hok : ∀ e ∈ s'.entries, okAt s' e.flight = true → okAt s e.flight = true ∧ weightAt cfg s' e.flight = weightAt cfg s e.flight)
    (h : WithinLimits cfg s) : WithinLimits cfg s' := by
  intro me mw hl
  obtain ⟨h1, h2⟩ := h me mw hl
  have hsub' : (s'.entries.filter (fun e => okAt s' e.flight)).Sublist (s.entries.filter (fun e => okAt s e.flight)) := by
    have : s'.entries.filter (fun e => okAt s' e.flight) = (s'.entries.filter (fun e => okAt s e.flight)).filter (fun e => okAt s' e.flight) := by
      rw [List.filter_filter]
      apply List.filter_congr
      intro e he
      cases hx : okAt s' e.flight
      · simp
      · simp [(hok e he hx).1]
    rw [this]
    exact List.filter_sublist.trans (hsub.filter _)
  refine ⟨Nat.le_trans hsub'.length_le h1, ?_⟩
  have : (s'.entries.filter (fun e => okAt s' e.flight)).map (fun e => weightAt cfg s' e.flight) =
      (s'.entries.filter (fun e => okAt s' e.flight)).map (fun e => weightAt cfg s e.flight) := by
    apply List.map_congr_left
    intro e he
    simp only [List.mem_filter] at he
    exact (hok e he.1 he.2).2
  rw [this]
  exact Nat.le_trans (Inv.sum_le hsub' _) h2

/-- A step that changes one flight (outside the eviction loop) and may drop its entry. -/
theorem inv_flight {cfg : Config K V E} {s : State K V E} (h : Inv cfg s) {f : Nat} {fl : Flight K V E} (hf : s.flights[f]? = some fl)
    (g : Flight K V E → Flight K V E) (es : List (Entry K)) (fails : Nat)
    (hsub : es.Sublist s.entries) (hkeep : ∀ x ∈ s.entries, x.flight ≠ f → x ∈ es)
    (hkey : (g fl).key = fl.key ∧ (g fl).generation = fl.generation)
    (hcre : fl.stage ≠ .created ∧ (g fl).stage ≠ .created) (_hev : fl.stage ≠ .evicting ∧ (g fl).stage ≠ .evicting)
    (hok : FlightOk cfg { s with entries := es } f (g fl))
    (hcell : ∀ r, fl.cell = some r → (g fl).cell = some r)
    (hbase : s.lock = none ∨ isOk (g fl).cell = false ∨ (g fl).stage = .set ∨ (g fl).stage = .notified)
    (hlim : cfg.limits = none ∨ isOk (g fl).cell = false ∨ (g fl).stage ≠ .processed)
    (hfail : fails + (if failureCounted fl then 1 else 0) = s.failures + (if failureCounted (g fl) then 1 else 0)) :
    Inv cfg { s.flight f g with entries := es, failures := fails } := by
  have hget : ∀ {j : Nat} {y : Flight K V E}, (s.flights.modify f g)[j]? = some y →
      (j = f ∧ y = g fl) ∨ (j ≠ f ∧ s.flights[j]? = some y) := by
    intro j y hy
    rcases getElem?_modify_some hy with ⟨rfl, x, hx, rfl⟩ | ⟨hne, hx⟩
    · rw [hf] at hx; cases hx; exact Or.inl ⟨rfl, rfl⟩
    · exact Or.inr ⟨fun h => hne h.symm, hx⟩
  have hfwd : ∀ {j : Nat} {y : Flight K V E}, s.flights[j]? = some y → ∃ y', (s.flights.modify f g)[j]? = some y' ∧
      y'.key = y.key ∧ y'.generation = y.generation ∧ (j ≠ f → y' = y) ∧ (j = f → y = fl ∧ y' = g fl) ∧
      (∀ r, y.cell = some r → y'.cell = some r) := by
    intro j y hy
    by_cases hj : j = f
    · subst hj
      rw [hf] at hy; cases hy
      exact ⟨g fl, getElem?_modify_eq g hf, hkey.1, hkey.2, fun h => absurd rfl h, fun _ => ⟨rfl, rfl⟩, hcell⟩
    · exact ⟨y, by rw [getElem?_modify_ne g (fun h => hj h.symm)]; exact hy, rfl, rfl, fun _ => rfl, fun h => absurd h hj, fun _ h => h⟩
  have hokAt : ∀ j, j ≠ f → okAt { s.flight f g with entries := es, failures := fails } j = okAt s j := by
    intro j hj
    unfold okAt State.flight
    dsimp only
    rw [getElem?_modify_ne g (fun h => hj h.symm)]
  have hokf : okAt { s.flight f g with entries := es, failures := fails } f = isOk (g fl).cell := by
    unfold okAt State.flight
    dsimp only
    rw [getElem?_modify_eq g hf]
  constructor
  · exact h.keys.sublist (hsub.map _)
  · intro e he
    obtain ⟨y, hy, hk, hg⟩ := h.entries e (hsub.subset he)
    obtain ⟨y', hy', hk', hg', -⟩ := hfwd hy
    exact ⟨y', hy', by rw [hk', hk], by rw [hg', hg]⟩
  · intro j y hy
    rcases hget hy with ⟨rfl, rfl⟩ | ⟨hj, hy⟩
    · exact hok
    · have := h.flights j y hy
      obtain ⟨h1, h2, h3⟩ := this
      refine ⟨h1, h2, ?_⟩
      have hin : InMap s j y → InMap { s.flight f g with entries := es, failures := fails } j y := fun hin => hkeep _ hin hj
      have hnot : NotInMap s j → NotInMap { s.flight f g with entries := es, failures := fails } j := fun hn e he => hn e (hsub.subset he)
      revert h3
      cases hst : y.stage <;> simp only
      · rintro ⟨a, b, c, d⟩; exact ⟨a, b, c, hin d⟩
      · rintro ⟨a, b, c, d⟩; exact ⟨a, b, c, hin d⟩
      · rintro ⟨a, b, c, d⟩; exact ⟨a, b, c, hin d⟩
      · rintro ⟨a, b, c, d⟩; exact ⟨a, b, c, hin d⟩
      · rintro ⟨a, b, c, d, e, i⟩; exact ⟨a, b, c, d, e, hnot i⟩
      · exact id
      · rintro ⟨a, b, c, d, e⟩; exact ⟨a, b, c, fun x y => hnot (d x y), e⟩
      · rintro ⟨a, b, c, d, e⟩; exact ⟨a, b, c, fun x y => hnot (d x y), e⟩
      · rintro ⟨a, b, c, d⟩; exact ⟨a, b, c, fun x => hnot (d x)⟩
  · intro i c hc
    have := h.callers i c hc
    unfold CallerOk at this ⊢
    revert this
    cases hph : c.phase <;> simp only
    · exact id
    · rintro ⟨y, hy, hk, hst⟩
      obtain ⟨y', hy', hk', -, hne, heq, -⟩ := hfwd hy
      refine ⟨y', hy', by rw [hk', hk], ?_⟩
      by_cases hj : ‹Nat› = f
      · rw [(heq hj).1] at hst; exact absurd hst hcre.1
      · rw [hne hj]; exact hst
    · rintro ⟨y, hy, hk, hst, hm⟩
      obtain ⟨y', hy', hk', -, hne, heq, -⟩ := hfwd hy
      refine ⟨y', hy', by rw [hk', hk], ?_, hm⟩
      by_cases hj : ‹Nat› = f
      · rw [(heq hj).2]; exact hcre.2
      · rw [hne hj]; exact hst
    · rintro ⟨y, hy, hk⟩
      obtain ⟨y', hy', hk', -⟩ := hfwd hy
      exact ⟨y', hy', by rw [hk', hk]⟩
    · rintro ⟨y, hy, hk, hs⟩
      obtain ⟨y', hy', hk', -, -, -, hc⟩ := hfwd hy
      refine ⟨y', hy', by rw [hk', hk], fun hseen => ?_⟩
      cases hyc : y.cell with
      | none => exact absurd hyc (hs hseen)
      | some r => rw [hc r hyc]; simp
    · rintro ⟨y, hy, hk, hs⟩
      obtain ⟨y', hy', hk', -⟩ := hfwd hy
      exact ⟨y', hy', by rw [hk', hk], hs⟩
    · rintro ⟨y, hy, hk, hs⟩
      obtain ⟨y', hy', hk', -, -, -, hc⟩ := hfwd hy
      exact ⟨y', hy', by rw [hk', hk], hc _ hs⟩
    · exact id
  · exact h.owners
  · intro j hj
    obtain ⟨hl, y, hy⟩ := h.lockValid j hj
    obtain ⟨y', hy', -⟩ := hfwd hy
    exact ⟨hl, y', hy'⟩
  · intro j hj e he hoke
    by_cases hef : e.flight = f
    · rw [hef] at hoke ⊢
      rw [hokf] at hoke
      rcases hbase with hb | hb | hb
      · change s.lock = some j at hj
        rw [hb] at hj; cases hj
      · rw [hb] at hoke; cases hoke
      · exact Or.inr ⟨g fl, getElem?_modify_eq g hf, hb⟩
    · rw [hokAt _ hef] at hoke
      rcases h.base j hj e (hsub.subset he) hoke with hb | ⟨y, hy, hb⟩
      · exact Or.inl hb
      · obtain ⟨y', hy', -, -, hne, -⟩ := hfwd hy
        exact Or.inr ⟨y', hy', by rw [hne hef]; exact hb⟩
  · intro hq
    rcases hlim with hl | hl | hl
    · intro me mw hlm; rw [hl] at hlm; cases hlm
    · have hnok : isOk fl.cell = false := by
        cases hc : fl.cell with
        | none => rfl
        | some r => rw [hcell r hc] at hl; exact hl
      have hq' : Quiet s := by
        intro j y hy hoky
        by_cases hj : j = f
        · subst hj; rw [hf] at hy; cases hy; rw [hnok] at hoky; cases hoky
        · exact hq j y (by show (s.flights.modify f g)[j]? = _; rw [getElem?_modify_ne g (fun h => hj h.symm)]; exact hy) hoky
      refine within_shrink hsub ?_ (h.limits hq')
      intro e he hoke
      have hef : e.flight ≠ f := by
        intro hef
        rw [hef, hokf, hl] at hoke
        cases hoke
      rw [hokAt _ hef] at hoke
      refine ⟨hoke, ?_⟩
      unfold weightAt State.flight
      dsimp only
      rw [getElem?_modify_ne g (fun h => hef h.symm)]
    · intro me mw hlm
      by_cases hn : isOk (g fl).cell = true
      · exact absurd (hq f (g fl) (getElem?_modify_eq g hf) hn) hl
      · have hl : isOk (g fl).cell = false := by simpa using hn
        have hnok : isOk fl.cell = false := by
          cases hc : fl.cell with
          | none => rfl
          | some r => rw [hcell r hc] at hl; exact hl
        have hq' : Quiet s := by
          intro j y hy hoky
          by_cases hj : j = f
          · subst hj; rw [hf] at hy; cases hy; rw [hnok] at hoky; cases hoky
          · exact hq j y (by show (s.flights.modify f g)[j]? = _; rw [getElem?_modify_ne g (fun h => hj h.symm)]; exact hy) hoky
        refine within_shrink hsub ?_ (h.limits hq') me mw hlm
        intro e he hoke
        have hef : e.flight ≠ f := by
          intro hef
          rw [hef, hokf, hl] at hoke
          cases hoke
        rw [hokAt _ hef] at hoke
        refine ⟨hoke, ?_⟩
        unfold weightAt State.flight
        dsimp only
        rw [getElem?_modify_ne g (fun h => hef h.symm)]
  · show s.nextGeneration = (s.flights.modify f g).length
    rw [List.length_modify]; exact h.generation
  · exact h.lookups
  · show s.misses = (s.flights.modify f g).length
    rw [List.length_modify]; exact h.misses
  · show s.producers = (s.flights.modify f g).countP notCreated
    have := countP_modify notCreated g hf
    have h1 : notCreated fl = true := by simp [notCreated, hcre.1]
    have h2 : notCreated (g fl) = true := by simp [notCreated, hcre.2]
    rw [h1, h2] at this
    rw [h.producers]; omega
  · show fails = (s.flights.modify f g).countP failureCounted
    have := countP_modify failureCounted g hf
    rw [h.failures] at hfail
    omega

/-- A step of one caller that leaves map and flights alone. -/
theorem inv_caller {cfg : Config K V E} {s : State K V E} (h : Inv cfg s) {c : Nat} {x : Caller K V E} (hc : s.callers[c]? = some x)
    (p : Phase V E) (hp : CallerOk cfg s { x with phase := p }) (hnotOwner : ∀ f, p ≠ .owner f)
    (hits joined : Nat)
    (hcount : s.hits + s.joined + (if isCounted x then 1 else 0) = hits + joined + (if isCounted (⟨x.key, p⟩ : Caller K V E) then 1 else 0)) :
    Inv cfg { s.caller c p with hits := hits, joined := joined } := by
  have hget : ∀ {j : Nat} {y : Caller K V E}, (s.callers.modify c (fun x => { x with phase := p }))[j]? = some y →
      (j = c ∧ y = { x with phase := p }) ∨ (j ≠ c ∧ s.callers[j]? = some y) := by
    intro j y hy
    rcases getElem?_modify_some hy with ⟨rfl, x', hx, rfl⟩ | ⟨hne, hx⟩
    · rw [hc] at hx; cases hx; exact Or.inl ⟨rfl, rfl⟩
    · exact Or.inr ⟨fun h => hne h.symm, hx⟩
  constructor
  · exact h.keys
  · exact h.entries
  · exact h.flights
  · intro i y hy
    rcases hget hy with ⟨rfl, rfl⟩ | ⟨-, hy⟩
    · exact hp
    · exact h.callers i y hy
  · intro i j ci cj f hi hj hpi hpj
    rcases hget hi with ⟨rfl, rfl⟩ | ⟨-, hi⟩
    · exact absurd hpi (hnotOwner f)
    · rcases hget hj with ⟨rfl, rfl⟩ | ⟨-, hj⟩
      · exact absurd hpj (hnotOwner f)
      · exact h.owners i j ci cj f hi hj hpi hpj
  · exact h.lockValid
  · exact h.base
  · exact h.limits
  · exact h.generation
  · show s.lookups = hits + joined + s.misses + (s.callers.modify c (fun x => { x with phase := p })).countP isCounted
    have := countP_modify isCounted (fun x : Caller K V E => { x with phase := p }) hc
    have := h.lookups
    omega
  · exact h.misses
  · exact h.producers
  · exact h.failures

theorem modify_cases {α : Type} {l : List α} {i : Nat} {x : α} (h : l[i]? = some x) (g : α → α) {j : Nat} {y : α} (hy : (l.modify i g)[j]? = some y) :
    (j = i ∧ y = g x) ∨ (j ≠ i ∧ l[j]? = some y) := by
  rcases getElem?_modify_some hy with ⟨rfl, x', hx, rfl⟩ | ⟨hne, hx⟩
  · rw [h] at hx; cases hx; exact Or.inl ⟨rfl, rfl⟩
  · exact Or.inr ⟨fun h => hne h.symm, hx⟩

/-- A change of one flight's stage. -/
theorem modify_stage {l : List (Flight K V E)} {f : Nat} (st : Stage) {j : Nat} {y : Flight K V E}
    (hy : l[j]? = some y) : ∃ y', (l.modify f (fun fl => { fl with stage := st }))[j]? = some y' ∧ y'.key = y.key ∧
      y'.generation = y.generation ∧ y'.cell = y.cell ∧ (j ≠ f → y' = y) ∧ (j = f → y'.stage = st) := by
  by_cases hj : j = f
  · subst hj
    exact ⟨_, getElem?_modify_eq _ hy, rfl, rfl, rfl, fun h => absurd rfl h, fun _ => rfl⟩
  · exact ⟨y, by rw [getElem?_modify_ne _ (fun h => hj h.symm)]; exact hy, rfl, rfl, rfl, fun _ => rfl, fun h => absurd h hj⟩

theorem cell_modify_stage (l : List (Flight K V E)) (f : Nat) (st : Stage) (j : Nat) :
    ((l.modify f (fun fl => { fl with stage := st }))[j]?).map (·.cell) = (l[j]?).map (·.cell) := by
  rw [List.getElem?_modify]
  cases l[j]? with
  | none => simp
  | some x => by_cases hj : f = j <;> simp [hj]

theorem okAt_eq (s : State K V E) (f : Nat) : okAt s f = match (s.flights[f]?).map (·.cell) with | some c => isOk c | none => false := by
  unfold okAt
  cases s.flights[f]? <;> rfl

theorem weightAt_eq (cfg : Config K V E) (s : State K V E) (f : Nat) :
    weightAt cfg s f = match (s.flights[f]?).map (·.cell) with | some (some (.ok v)) => cfg.weight v | _ => 0 := by
  unfold weightAt
  cases h : s.flights[f]? with
  | none => rfl
  | some fl =>
    cases h2 : fl.cell with
    | none => simp [h2]
    | some r => cases r <;> simp [h2]

theorem okAt_stage {s s' : State K V E} {f : Nat} {st : Stage} (h : s'.flights = s.flights.modify f (fun fl => { fl with stage := st })) (j : Nat) :
    okAt s' j = okAt s j := by
  rw [okAt_eq, okAt_eq, h, cell_modify_stage]

theorem weightAt_stage {cfg : Config K V E} {s s' : State K V E} {f : Nat} {st : Stage} (h : s'.flights = s.flights.modify f (fun fl => { fl with stage := st })) (j : Nat) :
    weightAt cfg s' j = weightAt cfg s j := by
  rw [weightAt_eq, weightAt_eq, h, cell_modify_stage]

theorem inv_start [DecidableEq K] {cfg : Config K V E} {s : State K V E} (h : Inv cfg s) {c : Nat} {key : K} {f : Nat}
    (hc : s.callers[c]? = some { key, phase := .owner f }) :
    Inv cfg { (s.flight f (fun fl => { fl with stage := .running })).caller c
            (match cfg.mode with | .async => .waiting f | .blocking => .producing f) with
          producers := s.producers + 1 } := by
  obtain ⟨fl, hf, hkey, hst⟩ := h.callers c _ hc
  have hokAt : ∀ j, okAt { (s.flight f (fun fl => { fl with stage := .running })).caller c
            (match cfg.mode with | .async => .waiting f | .blocking => .producing f) with
          producers := s.producers + 1 } j = okAt s j := by
    exact fun j => okAt_stage rfl j
  have hcl : ∀ {j : Nat} {y : Caller K V E}, s.callers[j]? = some y → j ≠ c → ∀ j', y.phase = .owner j' → j' ≠ f := by
    rintro j y hy hj j' hp rfl
    exact hj (h.owners j c y _ j' hy hc hp rfl)
  constructor
  · exact h.keys
  · intro e he
    obtain ⟨y, hy, hk, hg⟩ := h.entries e he
    obtain ⟨y', hy', hk', hg', -⟩ := modify_stage (f := f) .running hy
    exact ⟨y', hy', by rw [hk', hk], by rw [hg', hg]⟩
  · intro j y hy
    rcases modify_cases hf _ hy with ⟨rfl, rfl⟩ | ⟨-, hy⟩
    · obtain ⟨h1, h2, h3⟩ := h.flights j fl hf
      rw [hst] at h2 h3
      refine ⟨h1, ?_, h3⟩
      show s.lock = some j ↔ Stage.running = Stage.evicting
      rw [h2]; simp
    · exact h.flights j y hy
  · intro i y hy
    rcases modify_cases hc _ hy with ⟨rfl, rfl⟩ | ⟨hi, hy⟩
    · unfold CallerOk
      cases hm : cfg.mode
      · exact ⟨_, getElem?_modify_eq _ hf, hkey⟩
      · exact ⟨_, getElem?_modify_eq _ hf, hkey, by simp, rfl⟩
    · have := h.callers i y hy
      have hno := hcl hy hi
      unfold CallerOk at this ⊢
      revert this
      cases hph : y.phase <;> simp only
      · exact id
      · rintro ⟨x, hx, hk, hs⟩
        obtain ⟨x', hx', hk', -, -, hne, -⟩ := modify_stage (f := f) .running hx
        exact ⟨x', hx', by rw [hk', hk], by rw [hne (hno _ hph)]; exact hs⟩
      · rintro ⟨x, hx, hk, hs, hm⟩
        obtain ⟨x', hx', hk', -, -, hne, heq⟩ := modify_stage (f := f) .running hx
        refine ⟨x', hx', by rw [hk', hk], ?_, hm⟩
        by_cases hj : ‹Nat› = f
        · rw [heq hj]; simp
        · rw [hne hj]; exact hs
      · rintro ⟨x, hx, hk⟩
        obtain ⟨x', hx', hk', -⟩ := modify_stage (f := f) .running hx
        exact ⟨x', hx', by rw [hk', hk]⟩
      · rintro ⟨x, hx, hk, hs⟩
        obtain ⟨x', hx', hk', -, hcl, -⟩ := modify_stage (f := f) .running hx
        exact ⟨x', hx', by rw [hk', hk], by rw [hcl]; exact hs⟩
      · rintro ⟨x, hx, hk, hs⟩
        obtain ⟨x', hx', hk', -⟩ := modify_stage (f := f) .running hx
        exact ⟨x', hx', by rw [hk', hk], hs⟩
      · rintro ⟨x, hx, hk, hs⟩
        obtain ⟨x', hx', hk', -, hcl, -⟩ := modify_stage (f := f) .running hx
        exact ⟨x', hx', by rw [hk', hk], by rw [hcl]; exact hs⟩
      · exact id
  · intro i j ci cj f' hi hj hpi hpj
    rcases modify_cases hc _ hi with ⟨rfl, rfl⟩ | ⟨-, hi⟩
    · dsimp only at hpi
      split at hpi <;> cases hpi
    · rcases modify_cases hc _ hj with ⟨rfl, rfl⟩ | ⟨-, hj⟩
      · dsimp only at hpj
        split at hpj <;> cases hpj
      · exact h.owners i j ci cj f' hi hj hpi hpj
  · intro j hj
    obtain ⟨hl, y, hy⟩ := h.lockValid j hj
    obtain ⟨y', hy', -⟩ := modify_stage (f := f) .running hy
    exact ⟨hl, y', hy'⟩
  · intro j hj e he hoke
    rw [hokAt] at hoke
    rcases h.base j hj e he hoke with hb | ⟨y, hy, hb⟩
    · exact Or.inl hb
    · obtain ⟨y', hy', -, -, -, hne, -⟩ := modify_stage (f := f) .running hy
      refine Or.inr ⟨y', hy', ?_⟩
      rw [hne ?_]
      · exact hb
      · intro hef
        rw [hef, hf] at hy
        cases hy
        rw [hst] at hb
        simp at hb
  · intro hq
    have hq' : Quiet s := by
      intro j y hy hoky
      obtain ⟨y', hy', -, -, hcell, hne, heq⟩ := modify_stage (f := f) .running hy
      by_cases hj : j = f
      · subst hj
        have := hq j y' hy' (by rw [hcell]; exact hoky)
        rw [heq rfl] at this; cases this
      · rw [← hne hj]
        exact hq j y' hy' (by rw [hcell]; exact hoky)
    refine within_shrink (s := s) (List.Sublist.refl _) ?_ (h.limits hq')
    intro e he hoke
    refine ⟨by rw [← hokAt]; exact hoke, ?_⟩
    exact weightAt_stage rfl _
  · show s.nextGeneration = (s.flights.modify f _).length
    rw [List.length_modify]; exact h.generation
  · show s.lookups = s.hits + s.joined + s.misses + (s.callers.modify c _).countP isCounted
    rw [countP_modify_same]
    · exact h.lookups
    · intro x hx
      rw [hc] at hx; cases hx
      cases cfg.mode <;> rfl
  · show s.misses = (s.flights.modify f _).length
    rw [List.length_modify]; exact h.misses
  · show s.producers + 1 = (s.flights.modify f _).countP notCreated
    have := countP_modify notCreated (fun fl : Flight K V E => { fl with stage := .running }) hf
    have h1 : notCreated fl = false := by simp [notCreated, hst]
    have h2 : notCreated ({ fl with stage := .running } : Flight K V E) = true := by simp [notCreated]
    rw [h1, h2] at this
    rw [h.producers]
    simp at this
    omega
  · show s.failures = (s.flights.modify f _).countP failureCounted
    rw [countP_modify_same]
    · exact h.failures
    · intro x hx
      rw [hf] at hx; cases hx
      simp [failureCounted, hst]

theorem inv_miss [DecidableEq K] {cfg : Config K V E} {s : State K V E} (h : Inv cfg s) {c : Nat} {key : K}
    (hlock : s.lock = none) (hc : s.callers[c]? = some { key, phase := .counted }) (he : s.entries.find? (fun e => e.key = key) = none) :
    Inv cfg { s.caller c (.owner s.flights.length) with
          misses := s.misses + 1
          nextGeneration := s.nextGeneration + 1
          flights := s.flights ++ [{ key, generation := s.nextGeneration + 1, stage := .created, returned := none, cell := none, notified := false }]
          entries := s.entries ++ [{ key, flight := s.flights.length, generation := s.nextGeneration + 1 }] } := by
  have hkn : ∀ e ∈ s.entries, e.key ≠ key := by
    rw [List.find?_eq_none] at he
    intro e hm hk
    exact he e hm (by simpa using hk)
  have hlast : ∀ (y : Flight K V E), (s.flights ++ [y])[s.flights.length]? = some y := by intro y; simp
  have hold : ∀ {j : Nat} {y : Flight K V E} (x : Flight K V E), s.flights[j]? = some y → (s.flights ++ [x])[j]? = some y := by
    intro j y x hy
    rw [List.getElem?_append_left (List.getElem?_eq_some_iff.mp hy).1]; exact hy
  have hcases : ∀ {j : Nat} {x y : Flight K V E}, (s.flights ++ [x])[j]? = some y → (j = s.flights.length ∧ y = x) ∨ s.flights[j]? = some y := by
    intro j x y hy
    by_cases hj : j < s.flights.length
    · rw [List.getElem?_append_left hj] at hy; exact Or.inr hy
    · rw [List.getElem?_append_right (by omega)] at hy
      have : j - s.flights.length = 0 := by
        have := (List.getElem?_eq_some_iff.mp hy).1
        simp at this; omega
      rw [this] at hy
      simp at hy
      exact Or.inl ⟨by omega, hy.symm⟩
  have hlt : ∀ {j : Nat} {y : Flight K V E}, s.flights[j]? = some y → j ≠ s.flights.length := by
    intro j y hy
    have := (List.getElem?_eq_some_iff.mp hy).1
    omega
  have hget : ∀ (j : Nat) (x : Flight K V E), x.cell = none → isOk (match (s.flights ++ [x])[j]? with | some fl => fl.cell | none => none) =
      isOk (match s.flights[j]? with | some fl => fl.cell | none => none) := by
    intro j x hx
    cases hj : s.flights[j]? with
    | some y => rw [hold x hj]
    | none =>
      cases hj' : (s.flights ++ [x])[j]? with
      | none => rfl
      | some y =>
        rcases hcases hj' with ⟨-, rfl⟩ | hy
        · simp [hx]
        · rw [hj] at hy; cases hy
  constructor
  · show ((s.entries ++ [_]).map (fun e : Entry K => e.key)).Nodup
    rw [List.map_append, List.nodup_append]
    refine ⟨h.keys, by simp, ?_⟩
    intro a ha b hb
    simp at hb
    subst hb
    obtain ⟨e, hm, rfl⟩ := List.mem_map.mp ha
    exact hkn e hm
  · intro e hm
    rcases List.mem_append.mp hm with hm | hm
    · obtain ⟨y, hy, hk, hg⟩ := h.entries e hm
      exact ⟨y, hold _ hy, hk, hg⟩
    · simp at hm
      subst hm
      exact ⟨_, hlast _, rfl, rfl⟩
  · intro j y hy
    rcases hcases hy with ⟨rfl, rfl⟩ | hy
    · refine ⟨by show s.nextGeneration + 1 = _; rw [h.generation], ?_, rfl, rfl, rfl, ?_⟩
      · show s.lock = _ ↔ _
        rw [hlock]; simp
      · exact List.mem_append_right _ (by simp)
    · have hj := hlt hy
      obtain ⟨h1, h2, h3⟩ := h.flights j y hy
      refine ⟨h1, h2, ?_⟩
      have hin : InMap s j y → (⟨y.key, j, y.generation⟩ : Entry K) ∈ s.entries ++ [{ key, flight := s.flights.length, generation := s.nextGeneration + 1 }] :=
        fun hin => List.mem_append_left _ hin
      have hnot : NotInMap s j → ∀ e ∈ s.entries ++ [({ key, flight := s.flights.length, generation := s.nextGeneration + 1 } : Entry K)], e.flight ≠ j := by
        intro hn e hm
        rcases List.mem_append.mp hm with hm | hm
        · exact hn e hm
        · simp at hm; subst hm; exact fun h => hj h.symm
      revert h3
      cases hst : y.stage <;> simp only
      · rintro ⟨a, b, c, d⟩; exact ⟨a, b, c, hin d⟩
      · rintro ⟨a, b, c, d⟩; exact ⟨a, b, c, hin d⟩
      · rintro ⟨a, b, c, d⟩; exact ⟨a, b, c, hin d⟩
      · rintro ⟨a, b, c, d⟩; exact ⟨a, b, c, hin d⟩
      · rintro ⟨a, b, c, d, e, i⟩; exact ⟨a, b, c, d, e, hnot i⟩
      · exact id
      · rintro ⟨a, b, c, d, e⟩; exact ⟨a, b, c, fun x y => hnot (d x y), e⟩
      · rintro ⟨a, b, c, d, e⟩; exact ⟨a, b, c, fun x y => hnot (d x y), e⟩
      · rintro ⟨a, b, c, d⟩; exact ⟨a, b, c, fun x => hnot (d x)⟩
  · intro i y hy
    rcases modify_cases hc _ hy with ⟨rfl, rfl⟩ | ⟨hi, hy⟩
    · exact ⟨_, hlast _, rfl, rfl⟩
    · have := h.callers i y hy
      unfold CallerOk at this ⊢
      revert this
      cases hph : y.phase <;> simp only
      · exact id
      all_goals first
        | (rintro ⟨x, hx, rest⟩; exact ⟨x, hold _ hx, rest⟩)
        | exact id
  · intro i j ci cj f' hi hj hpi hpj
    have hbound : ∀ {i : Nat} {ci : Caller K V E}, s.callers[i]? = some ci → ci.phase ≠ .owner s.flights.length := by
      intro i ci hi hp
      have := h.callers i ci hi
      unfold CallerOk at this
      rw [hp] at this
      obtain ⟨x, hx, -⟩ := this
      exact hlt hx rfl
    rcases modify_cases hc _ hi with ⟨hic, hi'⟩ | ⟨-, hi'⟩ <;> rcases modify_cases hc _ hj with ⟨hjc, hj'⟩ | ⟨-, hj'⟩
    · rw [hic, hjc]
    · subst hi'; dsimp only at hpi; cases hpi; exact absurd hpj (hbound hj')
    · subst hj'; dsimp only at hpj; cases hpj; exact absurd hpi (hbound hi')
    · exact h.owners i j ci cj f' hi' hj' hpi hpj
  · intro j hj
    change s.lock = some j at hj
    rw [hlock] at hj; cases hj
  · intro j hj
    change s.lock = some j at hj
    rw [hlock] at hj; cases hj
  · intro hq me mw hl
    have hq' : Quiet s := fun j y hy hoky => hq j y (hold _ hy) hoky
    obtain ⟨h1, h2⟩ := h.limits hq' me mw hl
    have hfil : ∀ x : Flight K V E, x.cell = none → ∀ (s' : State K V E), s'.flights = s.flights ++ [x] →
        s'.entries = s.entries ++ [{ key, flight := s.flights.length, generation := s.nextGeneration + 1 }] →
        s'.entries.filter (fun e => okAt s' e.flight) = s.entries.filter (fun e => okAt s e.flight) ∧
        ∀ e ∈ s.entries, weightAt cfg s' e.flight = weightAt cfg s e.flight := by
      intro x hx s' hs' he'
      constructor
      · rw [he', List.filter_append]
        have : okAt s' s.flights.length = false := by
          unfold okAt; rw [hs', hlast]; simp [hx, isOk]
        rw [List.filter_cons_of_neg (by dsimp only; rw [this]; simp), List.filter_nil, List.append_nil]
        apply List.filter_congr
        intro e hm
        obtain ⟨y, hy, -⟩ := h.entries e hm
        unfold okAt
        rw [hs', hold x hy, hy]
      · intro e hm
        obtain ⟨y, hy, -⟩ := h.entries e hm
        unfold weightAt
        rw [hs', hold x hy, hy]
    obtain ⟨hA, hB⟩ := hfil { key, generation := s.nextGeneration + 1, stage := .created, returned := none, cell := none, notified := false } rfl
      { s.caller c (.owner s.flights.length) with
          misses := s.misses + 1
          nextGeneration := s.nextGeneration + 1
          flights := s.flights ++ [{ key, generation := s.nextGeneration + 1, stage := .created, returned := none, cell := none, notified := false }]
          entries := s.entries ++ [{ key, flight := s.flights.length, generation := s.nextGeneration + 1 }] } rfl rfl
    rw [hA]
    refine ⟨h1, ?_⟩
    rw [List.map_congr_left (fun e hm => hB e (List.mem_filter.mp hm).1)]
    exact h2
  · show s.nextGeneration + 1 = (s.flights ++ [_]).length
    rw [List.length_append, h.generation]; rfl
  · show s.lookups = s.hits + s.joined + (s.misses + 1) + (s.callers.modify c _).countP isCounted
    have := countP_modify isCounted (fun x : Caller K V E => { x with phase := .owner s.flights.length }) hc
    have h2 := h.lookups
    simp [isCounted] at this
    have h3 : (s.callers.modify c (fun x : Caller K V E => { x with phase := .owner s.flights.length })).countP isCounted + 1 = s.callers.countP isCounted := this
    omega
  · show s.misses + 1 = (s.flights ++ [_]).length
    rw [List.length_append, h.misses]; rfl
  · show s.producers = (s.flights ++ [_]).countP notCreated
    rw [List.countP_append, h.producers]
    simp [notCreated]
  · show s.failures = (s.flights ++ [_]).countP failureCounted
    rw [List.countP_append, h.failures]
    simp [failureCounted]

/-- The flight `f` moves into or out of the eviction loop, taking or giving back the lock. -/
theorem inv_evict [DecidableEq K] {cfg : Config K V E} {s : State K V E} (h : Inv cfg s) {f : Nat} {fl : Flight K V E} (hf : s.flights[f]? = some fl)
    (st : Stage) (lock : Option Nat) (base : List Nat)
    (hst : (fl.stage = .notified ∧ s.lock = none ∧ st = .evicting ∧ lock = some f ∧ base = completed s ∧ cfg.limits ≠ none ∧
        (cfg.mode = .async → isOk fl.cell = true)) ∨
      (fl.stage = .evicting ∧ st = .processed ∧ lock = none))
    (hlim : st = .processed → Quiet { s.flight f (fun fl => { fl with stage := st }) with lock := lock, base := base } → WithinLimits cfg s) :
    Inv cfg { s.flight f (fun fl => { fl with stage := st }) with lock := lock, base := base } := by
  have hokAt : ∀ j, okAt { s.flight f (fun fl => { fl with stage := st }) with lock := lock, base := base } j = okAt s j := by
    exact fun j => okAt_stage rfl j
  have hcre : fl.stage ≠ .created ∧ st ≠ .created := by
    rcases hst with ⟨h1, -, h2, -⟩ | ⟨h1, h2, -⟩ <;> rw [h1, h2] <;> simp
  have hfo := h.flights f fl hf
  constructor
  · exact h.keys
  · intro e he
    obtain ⟨y, hy, hk, hg⟩ := h.entries e he
    obtain ⟨y', hy', hk', hg', -⟩ := modify_stage (f := f) st hy
    exact ⟨y', hy', by rw [hk', hk], by rw [hg', hg]⟩
  · intro j y hy
    rcases modify_cases hf _ hy with ⟨rfl, rfl⟩ | ⟨hj, hy⟩
    · obtain ⟨h1, h2, h3⟩ := hfo
      rcases hst with ⟨hs, hl, rfl, rfl, -, -, hm⟩ | ⟨hs, rfl, rfl⟩
      · rw [hs] at h3
        obtain ⟨a, b, c, d, e⟩ := h3
        exact ⟨h1, by simp, a, b, c, d, fun _ => hm⟩
      · rw [hs] at h3
        obtain ⟨a, b, c, d, e⟩ := h3
        refine ⟨h1, by simp, a, b, c, ?_⟩
        intro hn
        cases hm : cfg.mode with
        | async => have := e rfl hm; change isOk fl.cell = false at hn; rw [this] at hn; cases hn
        | blocking => exact d hm hn
    · obtain ⟨h1, h2, h3⟩ := h.flights j y hy
      refine ⟨h1, ?_, h3⟩
      show lock = some j ↔ _
      rcases hst with ⟨hs, hl, -, rfl, -⟩ | ⟨hs, -, rfl⟩
      · rw [← h2, hl]; simp; exact fun h => hj h.symm
      · have := hfo.2.1.mpr hs
        rw [← h2, this]; simp; exact fun h => hj h.symm
  · intro i y hy
    have := h.callers i y hy
    unfold CallerOk at this ⊢
    revert this
    cases hph : y.phase <;> simp only
    · exact id
    · rintro ⟨x, hx, hk, hs⟩
      obtain ⟨x', hx', hk', -, -, hne, -⟩ := modify_stage (f := f) st hx
      refine ⟨x', hx', by rw [hk', hk], ?_⟩
      by_cases hj : ‹Nat› = f
      · rw [hj, hf] at hx; cases hx; exact absurd hs hcre.1
      · rw [hne hj]; exact hs
    · rintro ⟨x, hx, hk, hs, hm⟩
      obtain ⟨x', hx', hk', -, -, hne, heq⟩ := modify_stage (f := f) st hx
      refine ⟨x', hx', by rw [hk', hk], ?_, hm⟩
      by_cases hj : ‹Nat› = f
      · rw [heq hj]; exact hcre.2
      · rw [hne hj]; exact hs
    · rintro ⟨x, hx, hk⟩
      obtain ⟨x', hx', hk', -⟩ := modify_stage (f := f) st hx
      exact ⟨x', hx', by rw [hk', hk]⟩
    · rintro ⟨x, hx, hk, hs⟩
      obtain ⟨x', hx', hk', -, hcl, -⟩ := modify_stage (f := f) st hx
      exact ⟨x', hx', by rw [hk', hk], by rw [hcl]; exact hs⟩
    · rintro ⟨x, hx, hk, hs⟩
      obtain ⟨x', hx', hk', -⟩ := modify_stage (f := f) st hx
      exact ⟨x', hx', by rw [hk', hk], hs⟩
    · rintro ⟨x, hx, hk, hs⟩
      obtain ⟨x', hx', hk', -, hcl, -⟩ := modify_stage (f := f) st hx
      exact ⟨x', hx', by rw [hk', hk], by rw [hcl]; exact hs⟩
    · exact id
  · exact h.owners
  · intro j hj
    change lock = some j at hj
    rcases hst with ⟨hs, hl, -, rfl, -, hlim, -⟩ | ⟨hs, -, rfl⟩
    · cases hj
      exact ⟨hlim, _, getElem?_modify_eq _ hf⟩
    · cases hj
  · intro j hj e he hoke
    rw [hokAt] at hoke
    rcases hst with ⟨hs, hl, -, rfl, rfl, -⟩ | ⟨hs, -, rfl⟩
    · refine Or.inl ?_
      show e.flight ∈ completed s
      exact List.mem_map.mpr ⟨e, List.mem_filter.mpr ⟨he, hoke⟩, rfl⟩
    · cases hj
  · intro hq
    have hw : WithinLimits cfg s := by
      rcases hst with ⟨hs, hl, rfl, -⟩ | ⟨hs, hst', -⟩
      · apply h.limits
        intro j y hy hoky
        obtain ⟨y', hy', -, -, hcell, hne, heq⟩ := modify_stage (f := f) .evicting hy
        by_cases hj : j = f
        · subst hj
          have := hq j y' hy' (by rw [hcell]; exact hoky)
          rw [heq rfl] at this; cases this
        · rw [← hne hj]
          exact hq j y' hy' (by rw [hcell]; exact hoky)
      · exact hlim hst' hq
    refine within_shrink (s := s) (List.Sublist.refl _) ?_ hw
    intro e he hoke
    refine ⟨by rw [← hokAt]; exact hoke, ?_⟩
    exact weightAt_stage rfl _
  · show s.nextGeneration = (s.flights.modify f _).length
    rw [List.length_modify]; exact h.generation
  · exact h.lookups
  · show s.misses = (s.flights.modify f _).length
    rw [List.length_modify]; exact h.misses
  · show s.producers = (s.flights.modify f _).countP notCreated
    rw [countP_modify_same]
    · exact h.producers
    · intro x hx
      rw [hf] at hx; cases hx
      simp [notCreated, hcre]
  · show s.failures = (s.flights.modify f _).countP failureCounted
    rw [countP_modify_same]
    · exact h.failures
    · intro x hx
      rw [hf] at hx; cases hx
      rcases hst with ⟨h1, -, h2, -⟩ | ⟨h1, h2, -⟩ <;> simp [failureCounted, h1, h2]

/-- Under the lock every completed entry that no other completion is still processing was seen by all scans. -/
theorem stop_within [DecidableEq K] {cfg : Config K V E} {s : State K V E} (h : Inv cfg s) {f : Nat} {fl : Flight K V E} (hf : s.flights[f]? = some fl)
    (hs : fl.stage = .evicting) {maxEntries maxWeight : Nat} {count weight oldest : Nat → Bool} (hlim : cfg.limits = some (maxEntries, maxWeight))
    (hscan : Scan s count ∧ Scan s weight ∧ Scan s oldest) (hchoice : evictChoice cfg s maxEntries maxWeight count weight oldest = none)
    (hquiet : ∀ (j : Nat) (y : Flight K V E), s.flights[j]? = some y → isOk y.cell = true → y.stage ≠ .set ∧ y.stage ≠ .notified) :
    WithinLimits cfg s := by
  have hlock := (h.flights f fl hf).2.1.mpr hs
  have hbase : ∀ e ∈ s.entries, okAt s e.flight = true → e.flight ∈ s.base := by
    intro e he hok
    rcases h.base f hlock e he hok with hb | ⟨y, hy, hb⟩
    · exact hb
    · have := hquiet e.flight y hy (by unfold okAt at hok; rw [hy] at hok; exact hok)
      rcases hb with hb | hb
      · exact absurd hb this.1
      · exact absurd hb this.2
  have hsub : ∀ seen, Scan s seen → s.entries.filter (fun e => okAt s e.flight) = s.entries.filter (fun e => seen e.flight) := by
    intro seen hsc
    apply List.filter_congr
    intro e he
    cases hok : okAt s e.flight with
    | true => rw [hsc.1 _ (hbase e he hok)]
    | false =>
      cases hse : seen e.flight with
      | false => rfl
      | true => have := hsc.2 e he hse; rw [hok] at this; cases this
  intro me mw hl
  rw [hlim] at hl
  cases hl
  unfold evictChoice at hchoice
  split at hchoice
  · rename_i hle
    exact ⟨by rw [hsub count hscan.1]; exact hle.1, by rw [hsub weight hscan.2.1]; exact hle.2⟩
  · have hnil := minBy_none.mp hchoice
    rw [hsub oldest hscan.2.2, hnil]
    simp

theorem evictChoice_mem {cfg : Config K V E} {s : State K V E} {me mw : Nat} {count weight oldest : Nat → Bool} {e : Entry K}
    (hchoice : evictChoice cfg s me mw count weight oldest = some e) : e ∈ s.entries ∧ oldest e.flight = true := by
  unfold evictChoice at hchoice
  split at hchoice
  · cases hchoice
  · have := minBy_mem hchoice
    simp only [List.mem_filter] at this
    exact this

/-- One eviction: an entry with a completed flight leaves the map. -/
theorem inv_evictOne [DecidableEq K] {cfg : Config K V E} {s : State K V E} (h : Inv cfg s) {e : Entry K} (he : e ∈ s.entries)
    (hok : okAt s e.flight = true) :
    Inv cfg { s with
          entries := s.entries.filter (fun x => x.key ≠ e.key)
          evictions := s.evictions + 1
          base := completed { s with entries := s.entries.filter (fun x => x.key ≠ e.key) } } := by
  have hsub : (s.entries.filter (fun x => x.key ≠ e.key)).Sublist s.entries := List.filter_sublist
  have hkeep : ∀ x ∈ s.entries, x.flight ≠ e.flight → x ∈ s.entries.filter (fun x => x.key ≠ e.key) := by
    intro x hx hne
    rw [List.mem_filter]
    refine ⟨hx, ?_⟩
    simp only [ne_eq, decide_eq_true_eq]
    exact fun hk => hne (by rw [entry_unique h hx he hk])
  constructor
  · exact h.keys.sublist (hsub.map _)
  · intro x hx
    exact h.entries x (hsub.subset hx)
  · intro j y hy
    obtain ⟨h1, h2, h3⟩ := h.flights j y hy
    refine ⟨h1, h2, ?_⟩
    have hin : y.cell = none → InMap s j y → (⟨y.key, j, y.generation⟩ : Entry K) ∈ s.entries.filter (fun x => x.key ≠ e.key) := by
      intro hcell hin
      refine hkeep _ hin ?_
      intro hj
      dsimp only at hj
      unfold okAt at hok
      rw [← hj, hy] at hok
      simp [hcell, isOk] at hok
    have hnot : NotInMap s j → ∀ x ∈ s.entries.filter (fun x => x.key ≠ e.key), x.flight ≠ j := fun hn x hx => hn x (hsub.subset hx)
    revert h3
    cases hst : y.stage <;> simp only
    · rintro ⟨a, b, c, d⟩; exact ⟨a, b, c, hin b d⟩
    · rintro ⟨a, b, c, d⟩; exact ⟨a, b, c, hin b d⟩
    · rintro ⟨a, b, c, d⟩; exact ⟨a, b, c, hin b d⟩
    · rintro ⟨a, b, c, d⟩; exact ⟨a, b, c, hin b d⟩
    · rintro ⟨a, b, c, d, e, i⟩; exact ⟨a, b, c, d, e, hnot i⟩
    · exact id
    · rintro ⟨a, b, c, d, e⟩; exact ⟨a, b, c, fun x y => hnot (d x y), e⟩
    · rintro ⟨a, b, c, d, e⟩; exact ⟨a, b, c, fun x y => hnot (d x y), e⟩
    · rintro ⟨a, b, c, d⟩; exact ⟨a, b, c, fun x => hnot (d x)⟩
  · exact h.callers
  · exact h.owners
  · exact h.lockValid
  · intro j hj x hx hokx
    refine Or.inl ?_
    exact List.mem_map.mpr ⟨x, List.mem_filter.mpr ⟨hx, hokx⟩, rfl⟩
  · intro hq
    refine within_shrink (s := s) hsub ?_ (h.limits hq)
    intro x hx hokx
    exact ⟨hokx, rfl⟩
  · exact h.generation
  · exact h.lookups
  · exact h.misses
  · exact h.producers
  · exact h.failures

theorem inv_call {cfg : Config K V E} {s : State K V E} (h : Inv cfg s) (key : K) :
    Inv cfg { s with lookups := s.lookups + 1, callers := s.callers ++ [{ key, phase := .counted }] } := by
  have hcases : ∀ {j : Nat} {x y : Caller K V E}, (s.callers ++ [x])[j]? = some y → (j = s.callers.length ∧ y = x) ∨ s.callers[j]? = some y := by
    intro j x y hy
    by_cases hj : j < s.callers.length
    · rw [List.getElem?_append_left hj] at hy; exact Or.inr hy
    · rw [List.getElem?_append_right (by omega)] at hy
      have : j - s.callers.length = 0 := by
        have := (List.getElem?_eq_some_iff.mp hy).1
        simp at this; omega
      rw [this] at hy
      simp at hy
      exact Or.inl ⟨by omega, hy.symm⟩
  constructor
  · exact h.keys
  · exact h.entries
  · exact h.flights
  · intro i y hy
    rcases hcases hy with ⟨-, rfl⟩ | hy
    · trivial
    · exact h.callers i y hy
  · intro i j ci cj f hi hj hpi hpj
    rcases hcases hi with ⟨-, rfl⟩ | hi
    · cases hpi
    · rcases hcases hj with ⟨-, rfl⟩ | hj
      · cases hpj
      · exact h.owners i j ci cj f hi hj hpi hpj
  · exact h.lockValid
  · exact h.base
  · exact h.limits
  · exact h.generation
  · show s.lookups + 1 = s.hits + s.joined + s.misses + (s.callers ++ [_]).countP isCounted
    rw [List.countP_append, h.lookups]
    simp [isCounted]
    omega
  · exact h.misses
  · exact h.producers
  · exact h.failures

theorem inv_step [DecidableEq K] {cfg : Config K V E} {s s' : State K V E} (h : Inv cfg s) (hs : Step cfg s s') : Inv cfg s' := by
  cases hs with
  | call key => exact inv_call h key
  | found c key e fl hlock hc he hf =>
    refine inv_caller h hc _ ?_ (by simp) _ _ ?_
    · refine ⟨fl, hf, ?_⟩
      have := (entry_flight_key h (List.mem_of_find?_eq_some he) hf).1
      rw [← this]
      simpa using List.find?_some he
    · simp only [isCounted]
      by_cases hh : isHit cfg.mode fl.cell = true <;> simp [hh] <;> omega
  | miss c key hlock hc he => exact inv_miss h hlock hc he
  | start c key f hc => exact inv_start h hc
  | finish f fl r hf hst hr =>
    obtain ⟨h1, h2, h3⟩ := h.flights f fl hf
    rw [hst] at h2 h3
    refine inv_flight h hf _ s.entries s.failures (List.Sublist.refl _) (fun _ hx _ => hx) ⟨rfl, rfl⟩ ⟨by rw [hst]; simp, by simp⟩
      ⟨by rw [hst]; simp, by simp⟩ ⟨h1, ?_, ?_⟩ (fun _ hx => hx) ?_ ?_ ?_
    · rw [h2]; simp
    · exact ⟨by simp, h3.2.1, h3.2.2.1, h3.2.2.2⟩
    · exact Or.inr (Or.inl (by rw [h3.2.1]; rfl))
    · exact Or.inr (Or.inr (by simp))
    · simp [failureCounted, hst]
  | count f fl hf hst =>
    obtain ⟨h1, h2, h3⟩ := h.flights f fl hf
    rw [hst] at h2 h3
    refine inv_flight h hf _ s.entries _ (List.Sublist.refl _) (fun _ hx _ => hx) ⟨rfl, rfl⟩ ⟨by rw [hst]; simp, by simp⟩
      ⟨by rw [hst]; simp, by simp⟩ ⟨h1, ?_, ?_⟩ (fun _ hx => hx) ?_ ?_ ?_
    · rw [h2]; simp
    · exact h3
    · exact Or.inr (Or.inl (by rw [h3.2.1]; rfl))
    · exact Or.inr (Or.inr (by simp))
    · cases hok : isOk fl.returned <;> simp [failureCounted, hst, hok]
  | removeFailed f fl hlock hm hf hst hr =>
    obtain ⟨h1, h2, h3⟩ := h.flights f fl hf
    rw [hst] at h2 h3
    refine inv_flight h hf _ _ s.failures (removeIfOwned_sublist _ _ _) (fun x hx hne => (mem_removeIfOwned h hf x).mpr ⟨hx, hne⟩)
      ⟨rfl, rfl⟩ ⟨by rw [hst]; simp, by simp⟩ ⟨by rw [hst]; simp, by simp⟩ ⟨h1, ?_, ?_⟩ (fun _ hx => hx) ?_ ?_ ?_
    · rw [h2]; simp
    · exact ⟨hm, h3.1, hr, h3.2.1, h3.2.2.1, fun x hx => ((mem_removeIfOwned h hf x).mp hx).2⟩
    · exact Or.inl hlock
    · exact Or.inr (Or.inr (by simp))
    · simp [failureCounted, hst]
  | completeAsync f fl hm hf hst hassert =>
    obtain ⟨h1, h2, h3⟩ := h.flights f fl hf
    rw [hst] at h2 h3
    refine inv_flight h hf _ s.entries s.failures (List.Sublist.refl _) (fun _ hx _ => hx) ⟨rfl, rfl⟩ ⟨by rw [hst]; simp, by simp⟩
      ⟨by rw [hst]; simp, by simp⟩ ⟨h1, ?_, ?_⟩ (fun r hx => by rw [hassert] at hx; cases hx) ?_ ?_ ?_
    · rw [h2]; simp
    · exact ⟨hm, h3.1, rfl, h3.2.2.1⟩
    · exact Or.inr (Or.inr (Or.inl rfl))
    · exact Or.inr (Or.inr (by simp))
    · simp [failureCounted, hst]
  | notify f fl hf hst =>
    obtain ⟨h1, h2, h3⟩ := h.flights f fl hf
    rw [hst] at h2 h3
    refine inv_flight h hf _ s.entries s.failures (List.Sublist.refl _) (fun _ hx _ => hx) ⟨rfl, rfl⟩ ⟨by rw [hst]; simp, by simp⟩
      ⟨by rw [hst]; simp, by simp⟩ ⟨h1, ?_, ?_⟩ (fun _ hx => hx) ?_ ?_ ?_
    · rw [h2]; simp
    · refine ⟨h3.2.1, h3.2.2.1, rfl, ?_, by simp⟩
      intro hb; rw [h3.1] at hb; cases hb
    · exact Or.inr (Or.inr (Or.inr rfl))
    · exact Or.inr (Or.inr (by simp))
    · simp [failureCounted, hst]
  | completeBlocking f fl hm hf hst hassert =>
    obtain ⟨h1, h2, h3⟩ := h.flights f fl hf
    have hst' : fl.stage = .counted ∨ fl.stage = .removed := by
      rw [hst]; split
      · exact Or.inl rfl
      · exact Or.inr rfl
    refine inv_flight h hf _ s.entries s.failures (List.Sublist.refl _) (fun _ hx _ => hx) ⟨rfl, rfl⟩
      ⟨by rcases hst' with h | h <;> rw [h] <;> simp, by simp⟩
      ⟨by rcases hst' with h | h <;> rw [h] <;> simp, by simp⟩ ⟨h1, ?_, ?_⟩ (fun r hx => by rw [hassert] at hx; cases hx) ?_ ?_ ?_
    · rw [h2]; rcases hst' with h | h <;> rw [h] <;> simp
    · refine ⟨?_, rfl, rfl, ?_, by simp⟩
      · rcases hst' with h | h <;> rw [h] at h3
        · exact h3.1
        · exact h3.2.1
      · intro _ hno
        change isOk fl.returned = false at hno
        rw [hno] at hst
        simp at hst
        rw [hst] at h3
        exact h3.2.2.2.2.2
    · exact Or.inr (Or.inr (Or.inr rfl))
    · exact Or.inr (Or.inr (by simp))
    · rcases hst' with h | h <;> simp [failureCounted, h]
  | cleanupFailed f fl hlock hm hf hst hr =>
    obtain ⟨h1, h2, h3⟩ := h.flights f fl hf
    rw [hst] at h2 h3
    refine inv_flight h hf _ _ s.failures (removeIfOwned_sublist _ _ _) (fun x hx hne => (mem_removeIfOwned h hf x).mpr ⟨hx, hne⟩)
      ⟨rfl, rfl⟩ ⟨by rw [hst]; simp, by simp⟩ ⟨by rw [hst]; simp, by simp⟩ ⟨h1, ?_, ?_⟩ (fun _ hx => hx) ?_ ?_ ?_
    · rw [h2]; simp
    · exact ⟨h3.1, h3.2.1, h3.2.2.1, fun _ x hx => ((mem_removeIfOwned h hf x).mp hx).2⟩
    · exact Or.inl hlock
    · exact Or.inr (Or.inl hr)
    · simp [failureCounted, hst]
  | cleanupNothing f fl hf hst hwhich =>
    obtain ⟨h1, h2, h3⟩ := h.flights f fl hf
    rw [hst] at h2 h3
    have hl : cfg.limits = none ∨ isOk fl.cell = false := by
      rcases hwhich with ⟨-, -, hl⟩ | ⟨-, hl | hl⟩
      · exact Or.inl hl
      · exact Or.inr (by rw [hl]; rfl)
      · exact Or.inl hl
    refine inv_flight h hf _ s.entries s.failures (List.Sublist.refl _) (fun _ hx _ => hx) ⟨rfl, rfl⟩ ⟨by rw [hst]; simp, by simp⟩
      ⟨by rw [hst]; simp, by simp⟩ ⟨h1, ?_, ?_⟩ (fun _ hx => hx) ?_ ?_ ?_
    · rw [h2]; simp
    · refine ⟨h3.1, h3.2.1, h3.2.2.1, ?_⟩
      intro hno
      change isOk fl.cell = false at hno
      rcases hwhich with ⟨-, hok, -⟩ | ⟨hb, -⟩
      · rw [hno] at hok; cases hok
      · exact h3.2.2.2.1 hb hno
    · rcases hl with hl | hl
      · refine Or.inl ?_
        cases hlk : s.lock with
        | none => rfl
        | some j => exact absurd hl (h.lockValid j hlk).1
      · exact Or.inr (Or.inl hl)
    · rcases hl with hl | hl
      · exact Or.inl hl
      · exact Or.inr (Or.inl hl)
    · simp [failureCounted, hst]
  | evictStart f fl hlock hf hst hlim hwhich =>
    refine inv_evict h hf .evicting (some f) (completed s) (Or.inl ⟨hst, hlock, rfl, rfl, rfl, hlim, ?_⟩) (by intro h; cases h)
    intro hm
    rcases hwhich with ⟨-, hok⟩ | ⟨hb, -⟩
    · exact hok
    · rw [hm] at hb; cases hb
  | evictStop f fl me mw count weight oldest hf hst hlim hscan hchoice =>
    refine inv_evict h hf .processed none s.base (Or.inr ⟨hst, rfl, rfl⟩) ?_
    intro _ hq
    refine stop_within h hf hst hlim hscan hchoice ?_
    intro j y hy hok
    obtain ⟨y', hy', -, -, hcell, hne, -⟩ := modify_stage (f := f) .processed hy
    by_cases hj : j = f
    · subst hj
      rw [hf] at hy; cases hy
      rw [hst]; simp
    · have := hq j y' hy' (by rw [hcell]; exact hok)
      rw [hne hj] at this
      rw [this]; simp
  | evictOne f fl me mw count weight oldest e hf hst hlim hscan hchoice =>
    obtain ⟨he, ho⟩ := evictChoice_mem hchoice
    exact inv_evictOne h he (hscan.2.2.2 e he ho)
  | resume c key f fl hc hf hst =>
    obtain ⟨y, hy, hk, -⟩ := h.callers c _ hc
    rw [hf] at hy; cases hy
    refine inv_caller h hc _ ?_ ?_ s.hits s.joined ?_
    · split
      · rename_i hp; exact ⟨fl, hf, hk, hp⟩
      · exact ⟨fl, hf, hk⟩
    · intro f'; split <;> simp
    · rcases fl.cell with _ | _ | _ | _ <;> simp [isCounted]
  | arm c key f fl hc hf =>
    obtain ⟨y, hy, hk⟩ := h.callers c _ hc
    rw [hf] at hy; cases hy
    refine inv_caller h hc _ ?_ (by simp) s.hits s.joined (by simp [isCounted])
    refine ⟨fl, hf, hk, ?_⟩
    intro hn
    obtain ⟨-, -, h3⟩ := h.flights f fl hf
    intro hcell
    cases hst : fl.stage <;> rw [hst] at h3
    · rw [hn] at h3; simp at h3
    · rw [hn] at h3; simp at h3
    · rw [hn] at h3; simp at h3
    · rw [hn] at h3; simp at h3
    · rw [hn] at h3; simp at h3
    · rw [hn] at h3; simp at h3
    · exact h3.1 (by rw [← h3.2.1, hcell])
    · exact h3.1 (by rw [← h3.2.1, hcell])
    · exact h3.1 (by rw [← h3.2.1, hcell])
  | check c key f seen fl hc hf =>
    obtain ⟨y, hy, hk, hs⟩ := h.callers c _ hc
    rw [hf] at hy; cases hy
    refine inv_caller h hc _ ?_ ?_ s.hits s.joined ?_
    · split
      · rename_i hp; exact ⟨fl, hf, hk, hp⟩
      · rename_i hp
        refine ⟨fl, hf, hk, ?_⟩
        cases seen with
        | false => rfl
        | true => exact absurd hp (hs rfl)
    · intro f'; split <;> simp
    · cases fl.cell <;> simp [isCounted]
  | wake c key f fl hc hf hn =>
    obtain ⟨y, hy, hk, hs⟩ := h.callers c _ hc
    refine inv_caller h hc _ ?_ (by simp) s.hits s.joined (by simp [isCounted])
    exact ⟨y, hy, hk⟩
  | abandon c key f seen hm hc =>
    rcases hc with hc | hc | hc <;>
      exact inv_caller h hc .abandoned trivial (by simp) s.hits s.joined (by simp [isCounted])

theorem reachable_inv [DecidableEq K] {cfg : Config K V E} {s : State K V E} (h : Reachable cfg s) : Inv cfg s := by
  induction h with
  | init => exact inv_init cfg
  | step _ hs ih => exact inv_step ih hs

end Verif.SingleFlight
