import Verif.Lemmas.FlowLoop
/-!
The types recorded for the reads of variables.
-/
namespace Verif.FlowTypes
open Verif.Types

variable {W : World} {K : Know}

theorem reads_infer {e : Expr} {E : Env} {r : Res} {p : Nat × Ty} (h : p ∈ (inferOf e E r).reads) : p ∈ r.reads := by
  unfold inferOf at h
  split at h
  · exact h
  · cases h

theorem reads_call {recv : Expr} {m : String} {E : Env} {r : Res} {p : Nat × Ty}
    (h : p ∈ (callRes K recv m E (inferOf recv E r)).reads) : p ∈ r.reads := by
  unfold callRes at h
  split at h
  · cases h
  · exact reads_infer h

theorem reads_short {b : Bool} {l r : Res} {p : Nat × Ty} (h : p ∈ (shortRes b l r).reads) : p ∈ l.reads ++ r.reads := by
  unfold shortRes at h
  split at h
  · exact h
  · exact h
  · exact List.mem_append_left _ h
  · exact List.mem_append_left _ h
  · exact h

theorem reads_repeat {f : Env → Res} {S : List Nat} (hf : ∀ E, ∀ q ∈ (f E).reads, q.1 ∈ S) : ∀ (n : Nat) {r : Res},
    (∀ q ∈ r.reads, q.1 ∈ S) → ∀ q ∈ (repeatTrack f n r).reads, q.1 ∈ S
  | 0, _, h => h
  | n + 1, r, h => reads_repeat hf n (r := andThen r (f r.env)) (all_append h (hf r.env))

mutual
theorem reads_sites (K : Know) : ∀ (e : Expr) (d : Nat) (E : Env), ∀ q ∈ (track K d e E).reads, q.1 ∈ sites e
  | .lit _, _, _ => by simp [track]
  | .read x i, _, _ => by simp [track, sites]
  | .write x e, d, E => reads_sites K e d E
  | .const _, _, _ => by simp [track]
  | .self, _, _ => by simp [track]
  | .call0 r m, d, E => fun q h => reads_sites K r d E q (reads_call h)
  | .call r m a, d, E => fun q h => List.mem_append_left _ (reads_sites K r d E q (reads_call h))
  | .seq a b, d, E => by
    intro q h
    rcases List.mem_append.mp h with h | h
    · exact List.mem_append_left _ (reads_sites K a d _ q h)
    · exact List.mem_append_right _ (reads_sites K b d _ q h)
  | .paren e, d, E => reads_sites K e d E
  | .ifE c a b, d, E => by
    intro q h
    rcases List.mem_append.mp h with h | h
    · rcases List.mem_append.mp h with h | h
      · exact List.mem_append_left _ (List.mem_append_left _ (reads_sites K c d _ q h))
      · exact List.mem_append_left _ (List.mem_append_right _ (reads_sites K a d _ q h))
    · exact List.mem_append_right _ (reads_sites K b d _ q h)
  | .unlessE c a b, d, E => by
    intro q h
    rcases List.mem_append.mp h with h | h
    · rcases List.mem_append.mp h with h | h
      · exact List.mem_append_left _ (List.mem_append_left _ (reads_sites K c d _ q h))
      · exact List.mem_append_left _ (List.mem_append_right _ (reads_sites K a d _ q h))
    · exact List.mem_append_right _ (reads_sites K b d _ q h)
  | .caseE s ws l, d, E => by
    intro q h
    rcases List.mem_append.mp h with h | h
    · rcases List.mem_append.mp h with h | h
      · exact List.mem_append_left _ (List.mem_append_left _ (reads_sites K s d _ q h))
      · exact List.mem_append_left _ (List.mem_append_right _ (readsC_sites K ws d _ q h))
    · exact List.mem_append_right _ (reads_sites K l d _ q h)
  | .loopE w c b, d, E => by
    intro q h
    rcases List.mem_append.mp h with h | h
    · exact List.mem_append_left _ (reads_sites K c d _ q h)
    · exact List.mem_append_right _ (reads_repeat (fun E => reads_sites K b (d + 1) E) (passes d) (by simp) q h)
  | .andE l r, d, E => by
    intro q h
    rcases List.mem_append.mp (reads_short h) with h | h
    · exact List.mem_append_left _ (reads_sites K l d _ q h)
    · exact List.mem_append_right _ (reads_sites K r d _ q h)
  | .orE l r, d, E => by
    intro q h
    rcases List.mem_append.mp (reads_short h) with h | h
    · exact List.mem_append_left _ (reads_sites K l d _ q h)
    · exact List.mem_append_right _ (reads_sites K r d _ q h)
  | .beginE b rs n, d, E => by
    intro q h
    rcases List.mem_append.mp h with h | h
    · rcases List.mem_append.mp h with h | h
      · exact List.mem_append_left _ (List.mem_append_left _ (reads_sites K b d _ q h))
      · exact List.mem_append_left _ (List.mem_append_right _ (readsC_sites K rs d _ q h))
    · exact List.mem_append_right _ (reads_sites K n d _ q h)
  | .beginElse b rs l n, d, E => by
    intro q h
    rcases List.mem_append.mp h with h | h
    · rcases List.mem_append.mp h with h | h
      · rcases List.mem_append.mp h with h | h
        · exact List.mem_append_left _ (List.mem_append_left _ (List.mem_append_left _ (reads_sites K b d _ q h)))
        · exact List.mem_append_left _ (List.mem_append_right _ (reads_sites K l d _ q h))
      · exact List.mem_append_left _ (List.mem_append_left _ (List.mem_append_right _ (readsC_sites K rs d _ q h)))
    · exact List.mem_append_right _ (reads_sites K n d _ q h)
  | .rescueMod a b, d, E => by
    intro q h
    rcases List.mem_append.mp h with h | h
    · exact List.mem_append_left _ (reads_sites K a d _ q h)
    · exact List.mem_append_right _ (reads_sites K b d _ q h)
  | .ret e, d, E => fun q h => reads_sites K e d E q (reads_infer h)
  | .brk, _, _ => by simp [track]
  | .nxt, _, _ => by simp [track]
  | .opWrite _ _, _, _ => by simp [track]
  | .other _, _, _ => by simp [track]
theorem readsC_sites (K : Know) : ∀ (ws : Clauses) (d : Nat) (E : Env), ∀ q ∈ (trackClauses K d ws E).reads, q.1 ∈ sitesC ws
  | .nil, _, _ => by simp [trackClauses]
  | .cons c b l, d, E => by
    intro q h
    rcases List.mem_append.mp h with h | h
    · exact List.mem_append_left _ (List.mem_append_right _ (reads_sites K b d _ q h))
    · exact List.mem_append_right _ (readsC_sites K l d _ q h)
end

/-- What is recorded for site `i` describes what is read there; `S` are the sites of the code. -/
structure Rd (W : World) (i : Nat) (S : List Nat) (t : List (Nat × W.V)) (R : List (Nat × Ty)) : Prop where
  ev : ∀ u, (i, u) ∈ t → i ∈ S
  rc : ∀ τ, (i, τ) ∈ R → i ∈ S
  ok : ∀ u τ, (i, u) ∈ t → (i, τ) ∈ R → Desc W.toWorld τ u

variable {i : Nat} {S S' : List Nat} {t t' : List (Nat × W.V)} {R R' : List (Nat × Ty)}

theorem rd_append (h : Rd W i S t R) (h' : Rd W i S' t' R') (hc : S.count i + S'.count i ≤ 1) : Rd W i (S ++ S') (t ++ t') (R ++ R') := by
  have no : i ∈ S → i ∈ S' → False := by
    intro a b
    have := List.count_pos_iff.mpr a
    have := List.count_pos_iff.mpr b
    omega
  refine ⟨?_, ?_, ?_⟩
  · intro u hu
    rcases List.mem_append.mp hu with hu | hu
    · exact List.mem_append_left _ (h.ev u hu)
    · exact List.mem_append_right _ (h'.ev u hu)
  · intro u hu
    rcases List.mem_append.mp hu with hu | hu
    · exact List.mem_append_left _ (h.rc u hu)
    · exact List.mem_append_right _ (h'.rc u hu)
  · intro u τ hu hτ
    rcases List.mem_append.mp hu with hu | hu <;> rcases List.mem_append.mp hτ with hτ | hτ
    · exact h.ok u τ hu hτ
    · exact (no (h.ev u hu) (h'.rc τ hτ)).elim
    · exact (no (h.rc τ hτ) (h'.ev u hu)).elim
    · exact h'.ok u τ hu hτ

theorem Rd.sub (h : Rd W i S t R) (hS : ∀ x ∈ S, x ∈ S') (ht : ∀ q ∈ t', q ∈ t) (hR : ∀ q ∈ R', q ∈ R) : Rd W i S' t' R' :=
  ⟨fun u hu => hS _ (h.ev u (ht _ hu)), fun τ hτ => hS _ (h.rc τ (hR _ hτ)), fun u τ hu hτ => h.ok u τ (ht _ hu) (hR _ hτ)⟩

theorem rd_recorded (h : ∀ q ∈ R, q.1 ∈ S) : Rd W i S [] R := ⟨by simp, fun τ hτ => h _ hτ, by simp⟩

theorem rd_track (e : Expr) (d : Nat) (E : Env) : Rd W i (sites e) [] (track K d e E).reads := rd_recorded (reads_sites K e d E)

theorem rd_run {e : Expr} {σ σ' : Store W} {o : Out W.V} (h : run W e σ t o σ') : Rd W i (sites e) t [] :=
  ⟨fun u hu => (run_tame e σ t o σ' h).2.1 _ hu, by simp, by simp⟩

/-- The site is not in the code. -/
theorem rd_absent {e : Expr} {σ σ' : Store W} {o : Out W.V} (h : run W e σ t o σ') {d : Nat} {E : Env} (hi : i ∉ sites e) :
    Rd W i (sites e) t (track K d e E).reads :=
  ⟨fun u hu => (run_tame e σ t o σ' h).2.1 _ hu, fun τ hτ => reads_sites K e d E _ hτ,
    fun u _ hu _ => absurd ((run_tame e σ t o σ' h).2.1 _ hu) hi⟩

theorem rd_nil : Rd W i S [] [] := ⟨by simp, by simp, by simp⟩

macro "cnt" : tactic => `(tactic| (first | assumption | (simp only [sites, sitesC, loopSites, loopSitesC, List.count_append, List.mem_append, not_or] at *; first | omega | tauto)))

theorem sub3 {α : Type} {P : α → Prop} {a b c : List α} (ha : ∀ x ∈ a, P x) (hb : ∀ x ∈ b, P x) (hc : ∀ x ∈ c, P x) : ∀ x ∈ a ++ b ++ c, P x :=
  all_append (all_append ha hb) hc

mutual
theorem sound_reads (hK : Right W K) (i : Nat) : ∀ (e : Expr) (v : Bool) (d : Nat) (E : Env), Ok W K v d e E →
    (sites e).count i ≤ 1 → i ∉ loopSites e →
    ∀ (σ : Store W) (t : List (Nat × W.V)) (o : Out W.V) (σ' : Store W), Agrees W E σ → run W e σ t o σ' →
      Rd W i (sites e) t (track K d e E).reads
  | .lit t, v, d, E, _, _, _, σ, _, o, σ', hA, h => by
    cases h <;> exact rd_nil
  | .read x j, v, d, E, _, _, _, σ, _, o, σ', hA, h => by
    refine ⟨?_, ?_, ?_⟩
    · intro u hu; exact (run_tame _ _ _ _ _ h).2.1 _ hu
    · intro τ hτ; exact reads_sites K _ d E _ hτ
    · intro u τ hu hτ
      simp only [track, List.mem_singleton, Prod.mk.injEq] at hτ
      cases h with
      | raise => cases hu
      | val =>
        simp only [List.mem_singleton, Prod.mk.injEq] at hu
        rw [hτ.2, hu.2]
        have := hA x
        cases e : E x with
        | none => simp [Desc]
        | some t => rw [e] at this; exact this
  | .write x e, v, d, E, ok, hc, hl, σ, _, o, σ', hA, h => by
    simp only [Ok] at ok
    have ih := fun t o σ' h => sound_reads hK i e true d E ok hc hl σ t o σ' hA h
    cases h with
    | leaves h hv => exact ih _ _ _ h
    | next h1 h2 =>
      cases h2
      rw [List.append_nil]
      exact ih _ _ _ h1
  | .const c, v, d, E, _, _, _, σ, _, o, σ', hA, h => by
    cases h <;> exact rd_nil
  | .self, v, d, E, _, _, _, σ, _, o, σ', hA, h => by
    cases h <;> exact rd_nil
  | .call0 r m, v, d, E, ok, hc, hl, σ, _, o, σ', hA, h => by
    simp only [Ok] at ok
    obtain ⟨ok1, ok2, ok3⟩ := ok
    have ih : ∀ t o σ', run W r σ t o σ' → Rd W i (sites r) t (callRes K r m E (inferOf r E (track K d r E))).reads := by
      intro t o σ' h
      cases hr : isExpr r with
      | true => exact (sound_reads hK i r true d E (ok1 hr) hc hl σ t o σ' hA h).sub (fun _ h => h) (fun _ h => h) (fun _ h => reads_call h)
      | false =>
        refine (rd_run h).sub (fun _ h => h) (fun _ h => h) ?_
        intro q hq
        rcases callRes_cases K r m E (inferOf r E (track K d r E)) with ⟨c, _, _, e⟩ | e
        · rw [e] at hq; exact hq
        · rw [e] at hq; simpa [inferOf, hr] using hq
    cases h with
    | leaves h hv => exact ih _ _ _ h
    | next h1 h2 =>
      have g := ih _ _ _ h1
      cases h2 <;> (rw [List.append_nil]; exact g)
  | .call r m a, v, d, E, ok, hc, hl, σ, _, o, σ', hA, h => by
    simp only [Ok] at ok
    obtain ⟨ok1, ok2, ok3, ok4⟩ := ok
    have hc' : (sites r).count i + (sites a).count i ≤ 1 := by cnt
    have ih : ∀ t o σ', run W r σ t o σ' → Rd W i (sites r) t (callRes K r m E (inferOf r E (track K d r E))).reads := by
      intro t o σ' h
      cases hr : isExpr r with
      | true =>
        exact (sound_reads hK i r true d E (ok1 hr) (by cnt) (by cnt) σ t o σ' hA h).sub (fun _ h => h) (fun _ h => h) (fun _ h => reads_call h)
      | false =>
        refine (rd_run h).sub (fun _ h => h) (fun _ h => h) ?_
        intro q hq
        rcases callRes_cases K r m E (inferOf r E (track K d r E)) with ⟨c, _, _, e⟩ | e
        · rw [e] at hq; exact hq
        · rw [e] at hq; simpa [inferOf, hr] using hq
    cases h with
    | leaves h hv => exact (ih _ _ _ h).sub (fun _ h => List.mem_append_left _ h) (fun _ h => h) (fun _ h => h)
    | next h1 h2 =>
      have g := ih _ _ _ h1
      cases h2 with
      | leaves h3 hv => exact (rd_append g (rd_run h3) hc').sub (fun _ h => h) (fun _ h => h) (fun _ h => List.mem_append_left _ h)
      | next h3 h4 =>
        have g' := (rd_append g (rd_run h3) hc').sub (S' := sites (.call r m a)) (fun _ h => h) (fun _ h => h) (fun _ h => List.mem_append_left _ h)
        cases h4 <;> (rw [List.append_nil]; exact g')
  | .seq a b, v, d, E, ok, hc, hl, σ, _, o, σ', hA, h => by
    simp only [Ok] at ok
    have hc' : (sites a).count i + (sites b).count i ≤ 1 := by cnt
    have iha := fun t o σ' h => sound_reads hK i a false d E ok.1 (by cnt) (by cnt) σ t o σ' hA h
    cases h with
    | leaves h hv =>
      exact (rd_append (iha _ _ _ h) (rd_track b d _) hc').sub (fun _ h => h) (fun _ h => List.mem_append_left _ h) (fun _ h => h)
    | next h1 h2 =>
      have hA' := ((sound hK a false d E ok.1 _ _ _ _ hA h1).val _ rfl).2
      exact rd_append (iha _ _ _ h1) (sound_reads hK i b v d _ ok.2 (by cnt) (by cnt) _ _ _ _ hA' h2) hc'
  | .paren e, v, d, E, ok, hc, hl, σ, t, o, σ', hA, h => sound_reads hK i e v d E ok hc hl σ t o σ' hA h
  | .ifE c a b, v, d, E, ok, hc, hl, σ, _, o, σ', hA, h => by
    simp only [Ok] at ok
    obtain ⟨ok1, ok2, ok3, -⟩ := ok
    have h1' : (sites c).count i + (sites a).count i ≤ 1 := by cnt
    have h2' : (sites c ++ sites a).count i + (sites b).count i ≤ 1 := by cnt
    have ihc := fun t o σ' h => sound_reads hK i c false d E ok1 (by cnt) (by cnt) σ t o σ' hA h
    cases h with
    | leaves h hv =>
      exact (rd_append (rd_append (ihc _ _ _ h) (rd_track a d _) h1') (rd_track b d _) h2').sub (fun _ h => h)
        (fun _ h => List.mem_append_left _ (List.mem_append_left _ h)) (fun _ h => h)
    | next h1 h2 =>
      have hA' := ((sound hK c false d E ok1 _ _ _ _ hA h1).val _ rfl).2
      cases h2 with
      | yes hw h2 =>
        have ga := sound_reads hK i a v d _ ok2 (by cnt) (by cnt) _ _ _ _ hA' h2
        exact (rd_append (rd_append (ihc _ _ _ h1) ga h1') (rd_track b d _) h2').sub (fun _ h => h)
          (fun _ h => List.mem_append_left _ h) (fun _ h => h)
      | no hw h2 =>
        have gb := sound_reads hK i b v d _ ok3 (by cnt) (by cnt) _ _ _ _ hA' h2
        exact (rd_append (rd_append (ihc _ _ _ h1) (rd_track a d _) h1') gb h2').sub (fun _ h => h)
          (by simp) (fun _ h => h)
  | .unlessE c a b, v, d, E, ok, hc, hl, σ, _, o, σ', hA, h => by
    simp only [Ok] at ok
    obtain ⟨ok1, ok2, ok3, -⟩ := ok
    have h1' : (sites c).count i + (sites a).count i ≤ 1 := by cnt
    have h2' : (sites c ++ sites a).count i + (sites b).count i ≤ 1 := by cnt
    have ihc := fun t o σ' h => sound_reads hK i c false d E ok1 (by cnt) (by cnt) σ t o σ' hA h
    cases h with
    | leaves h hv =>
      exact (rd_append (rd_append (ihc _ _ _ h) (rd_track a d _) h1') (rd_track b d _) h2').sub (fun _ h => h)
        (fun _ h => List.mem_append_left _ (List.mem_append_left _ h)) (fun _ h => h)
    | next h1 h2 =>
      have hA' := ((sound hK c false d E ok1 _ _ _ _ hA h1).val _ rfl).2
      cases h2 with
      | no hw h2 =>
        have ga := sound_reads hK i a v d _ ok2 (by cnt) (by cnt) _ _ _ _ hA' h2
        exact (rd_append (rd_append (ihc _ _ _ h1) ga h1') (rd_track b d _) h2').sub (fun _ h => h)
          (fun _ h => List.mem_append_left _ h) (fun _ h => h)
      | yes hw h2 =>
        have gb := sound_reads hK i b v d _ ok3 (by cnt) (by cnt) _ _ _ _ hA' h2
        exact (rd_append (rd_append (ihc _ _ _ h1) (rd_track a d _) h1') gb h2').sub (fun _ h => h)
          (by simp) (fun _ h => h)
  | .caseE s ws l, v, d, E, ok, hc, hl, σ, _, o, σ', hA, h => by
    simp only [Ok] at ok
    obtain ⟨ok1, ok2, ok3⟩ := ok
    have h1' : (sites s).count i + (sitesC ws).count i ≤ 1 := by cnt
    have h2' : (sites s ++ sitesC ws).count i + (sites l).count i ≤ 1 := by cnt
    have ihs := fun t o σ' h => sound_reads hK i s false d E ok1 (by cnt) (by cnt) σ t o σ' hA h
    cases h with
    | leaves h hv =>
      exact (rd_append (rd_append (ihs _ _ _ h) (rd_recorded (readsC_sites K ws d _)) h1') (rd_track l d _) h2').sub (fun _ h => h)
        (fun _ h => List.mem_append_left _ (List.mem_append_left _ h)) (fun _ h => h)
    | next h1 h2 =>
      have hA' := ((sound hK s false d E ok1 _ _ _ _ hA h1).val _ rfl).2
      obtain ⟨t₁, t₂, rfl, g1, g2⟩ := sound_readsC hK i ws v d _ ok2 (by cnt) (by cnt) (run W l) _ _ _ _ hA' h2
      rcases g2 with rfl | g2
      · exact (rd_append (rd_append (ihs _ _ _ h1) g1 h1') (rd_track l d _) h2').sub (fun _ h => h) (by simp) (fun _ h => h)
      · have gl := sound_reads hK i l v d _ ok3 (by cnt) (by cnt) _ _ _ _ hA' g2
        exact (rd_append (rd_append (ihs _ _ _ h1) g1 h1') gl h2').sub (fun _ h => h) (by simp) (fun _ h => h)
  | .loopE w c b, v, d, E, ok, hc, hl, σ, t, o, σ', hA, h => rd_absent h hl
  | .andE l r, v, d, E, ok, hc, hl, σ, _, o, σ', hA, h => by
    simp only [Ok] at ok
    obtain ⟨ok1, ok2, -⟩ := ok
    have hc' : (sites l).count i + (sites r).count i ≤ 1 := by cnt
    have ihl := fun t o σ' h => sound_reads hK i l true d E ok1 (by cnt) (by cnt) σ t o σ' hA h
    cases h with
    | leaves h hv =>
      exact (rd_append (ihl _ _ _ h) (rd_track r d _) hc').sub (fun _ h => h) (fun _ h => List.mem_append_left _ h) (fun _ h => reads_short h)
    | next h1 h2 =>
      have hA' := ((sound hK l true d E ok1 _ _ _ _ hA h1).val _ rfl).2
      cases h2 with
      | yes hw h2 =>
        exact (rd_append (ihl _ _ _ h1) (sound_reads hK i r v d _ ok2 (by cnt) (by cnt) _ _ _ _ hA' h2) hc').sub (fun _ h => h)
          (fun _ h => h) (fun _ h => reads_short h)
      | no hw h2 =>
        cases h2
        exact (rd_append (ihl _ _ _ h1) (rd_track r d _) hc').sub (fun _ h => h) (fun _ h => h) (fun _ h => reads_short h)
  | .orE l r, v, d, E, ok, hc, hl, σ, _, o, σ', hA, h => by
    simp only [Ok] at ok
    obtain ⟨ok1, ok2, -⟩ := ok
    have hc' : (sites l).count i + (sites r).count i ≤ 1 := by cnt
    have ihl := fun t o σ' h => sound_reads hK i l true d E ok1 (by cnt) (by cnt) σ t o σ' hA h
    cases h with
    | leaves h hv =>
      exact (rd_append (ihl _ _ _ h) (rd_track r d _) hc').sub (fun _ h => h) (fun _ h => List.mem_append_left _ h) (fun _ h => reads_short h)
    | next h1 h2 =>
      have hA' := ((sound hK l true d E ok1 _ _ _ _ hA h1).val _ rfl).2
      cases h2 with
      | no hw h2 =>
        exact (rd_append (ihl _ _ _ h1) (sound_reads hK i r v d _ ok2 (by cnt) (by cnt) _ _ _ _ hA' h2) hc').sub (fun _ h => h)
          (fun _ h => h) (fun _ h => reads_short h)
      | yes hw h2 =>
        cases h2
        exact (rd_append (ihl _ _ _ h1) (rd_track r d _) hc').sub (fun _ h => h) (fun _ h => h) (fun _ h => reads_short h)
  | .beginE b rs n, v, d, E, ok, hc, hl, σ, _, o, σ', hA, h => by
    simp only [Ok] at ok
    obtain ⟨ok1, okp, ok2, okr, ok3⟩ := ok
    have h1' : (sites b).count i + (sitesC rs).count i ≤ 1 := by cnt
    have h2' : (sites b ++ sitesC rs).count i + (sites n).count i ≤ 1 := by cnt
    have hn : i ∉ sites n := by cnt
    have ihb := fun t o σ' h => sound_reads hK i b v d E ok1 (by cnt) (by cnt) σ t o σ' hA h
    have hcl := fun E => readsC_sites K rs d E
    have inner : ∀ t o σ', Rescue (run W b) (runClauses W rs (Now .raised)) (fun v => Now (.val v)) σ t o σ' →
        Rd W i (sites b ++ sitesC rs) t ((track K d b E).reads ++ (trackClauses K d rs (rescueEnv E (track K d b E).obs)).reads) := by
      intro t o σ' h
      cases h with
      | normal h1 h2 =>
        cases h2
        exact rd_append (ihb _ _ _ h1) (rd_recorded (hcl _)) h1'
      | handled h1 h2 =>
        rcases okp with rfl | hb
        · cases h2
          exact rd_append (ihb _ _ _ h1) (rd_recorded (hcl _)) h1'
        · have g := sound hK b v d E ok1 _ _ _ _ hA h1
          obtain ⟨ob, g1, g2⟩ := g.cov hb
          have hA' := agrees_rescueEnv hA (covered_mono (track_static K b hb d E).obs hA g1 g2)
          obtain ⟨t₁, t₂, rfl, k1, k2⟩ := sound_readsC hK i rs v d _ ok2 (by cnt) (by cnt) (Now .raised) _ _ _ _ hA' h2
          rcases k2 with rfl | k2
          · exact (rd_append (ihb _ _ _ h1) k1 h1').sub (fun _ h => h) (by simp) (fun _ h => h)
          · cases k2
            exact (rd_append (ihb _ _ _ h1) k1 h1').sub (fun _ h => h) (by simp) (fun _ h => h)
      | leaves h hv _ =>
        exact (rd_append (ihb _ _ _ h) (rd_recorded (hcl _)) h1').sub (fun _ h => h) (fun _ h => List.mem_append_left _ h) (fun _ h => h)
    cases h with
    | normal h1 h2 => exact rd_append (inner _ _ _ h1) (rd_absent h2 hn) h2'
    | leaves h1 h2 _ => exact rd_append (inner _ _ _ h1) (rd_absent h2 hn) h2'
  | .beginElse b rs l n, v, d, E, ok, hc, hl, σ, _, o, σ', hA, h => by
    simp only [Ok] at ok
    obtain ⟨ok1, okl, okp, ok2, okr, ok3⟩ := ok
    have h0' : (sites b).count i + (sites l).count i ≤ 1 := by cnt
    have h1' : (sites b ++ sites l).count i + (sitesC rs).count i ≤ 1 := by cnt
    have h2' : (sites b ++ sites l ++ sitesC rs).count i + (sites n).count i ≤ 1 := by cnt
    have hn : i ∉ sites n := by cnt
    have ihb := fun t o σ' h => sound_reads hK i b v d E ok1 (by cnt) (by cnt) σ t o σ' hA h
    have hcl := fun E => readsC_sites K rs d E
    have inner : ∀ t o σ', Rescue (run W b) (runClauses W rs (Now .raised)) (fun _ => run W l) σ t o σ' →
        Rd W i (sites b ++ sites l ++ sitesC rs) t ((track K d b E).reads ++ (track K d l (track K d b E).env).reads ++
          (trackClauses K d rs (rescueEnv E (track K d b E).obs)).reads) := by
      intro t o σ' h
      cases h with
      | normal h1 h2 =>
        have hA' := ((sound hK b v d E ok1 _ _ _ _ hA h1).val _ rfl).2
        have gl := sound_reads hK i l v d _ okl (by cnt) (by cnt) _ _ _ _ hA' h2
        exact (rd_append (rd_append (ihb _ _ _ h1) gl h0') (rd_recorded (hcl _)) h1').sub (fun _ h => h) (by simp) (fun _ h => h)
      | handled h1 h2 =>
        rcases okp with rfl | hb
        · cases h2
          exact (rd_append (rd_append (ihb _ _ _ h1) (rd_track l d _) h0') (rd_recorded (hcl _)) h1').sub (fun _ h => h) (by simp) (fun _ h => h)
        · have g := sound hK b v d E ok1 _ _ _ _ hA h1
          obtain ⟨ob, g1, g2⟩ := g.cov hb
          have hA' := agrees_rescueEnv hA (covered_mono (track_static K b hb d E).obs hA g1 g2)
          obtain ⟨t₁, t₂, rfl, k1, k2⟩ := sound_readsC hK i rs v d _ ok2 (by cnt) (by cnt) (Now .raised) _ _ _ _ hA' h2
          rcases k2 with rfl | k2
          · exact (rd_append (rd_append (ihb _ _ _ h1) (rd_track l d _) h0') k1 h1').sub (fun _ h => h) (by simp) (fun _ h => h)
          · cases k2
            exact (rd_append (rd_append (ihb _ _ _ h1) (rd_track l d _) h0') k1 h1').sub (fun _ h => h) (by simp) (fun _ h => h)
      | leaves h hv _ =>
        exact (rd_append (rd_append (ihb _ _ _ h) (rd_track l d _) h0') (rd_recorded (hcl _)) h1').sub (fun _ h => h)
          (fun _ h => List.mem_append_left _ (List.mem_append_left _ h)) (fun _ h => h)
    have perm : ∀ x ∈ sites b ++ sites l ++ sitesC rs ++ sites n, x ∈ sites (.beginElse b rs l n) := by
      intro x hx
      simp only [sites, List.mem_append] at hx ⊢
      tauto
    cases h with
    | normal h1 h2 => exact (rd_append (inner _ _ _ h1) (rd_absent h2 hn) h2').sub perm (fun _ h => h) (fun _ h => h)
    | leaves h1 h2 _ => exact (rd_append (inner _ _ _ h1) (rd_absent h2 hn) h2').sub perm (fun _ h => h) (fun _ h => h)
  | .rescueMod e r, v, d, E, ok, hc, hl, σ, _, o, σ', hA, h => by
    simp only [Ok] at ok
    obtain ⟨ok1, hb, ok2⟩ := ok
    have hc' : (sites e).count i + (sites r).count i ≤ 1 := by cnt
    have ihe := fun t o σ' h => sound_reads hK i e v d E ok1 (by cnt) (by cnt) σ t o σ' hA h
    cases h with
    | normal h1 h2 =>
      cases h2
      exact rd_append (ihe _ _ _ h1) (rd_track r d _) hc'
    | handled h1 h2 =>
      have g := sound hK e v d E ok1 _ _ _ _ hA h1
      obtain ⟨ob, g1, g2⟩ := g.cov hb
      have hA' := agrees_rescueEnv hA (covered_mono (track_static K e hb d E).obs hA g1 g2)
      cases h2 with
      | left h2 => exact rd_append (ihe _ _ _ h1) (sound_reads hK i r v d _ ok2 (by cnt) (by cnt) _ _ _ _ hA' h2) hc'
      | right h2 =>
        cases h2
        exact rd_append (ihe _ _ _ h1) (rd_track r d _) hc'
    | leaves h hv _ =>
      exact (rd_append (ihe _ _ _ h) (rd_track r d _) hc').sub (fun _ h => h) (fun _ h => List.mem_append_left _ h) (fun _ h => h)
  | .ret e, v, d, E, ok, hc, hl, σ, _, o, σ', hA, h => by
    simp only [Ok] at ok
    obtain ⟨ok1, ok2⟩ := ok
    have ih : ∀ t o σ', run W e σ t o σ' → Rd W i (sites e) t (inferOf e E (track K d e E)).reads := by
      intro t o σ' h
      cases hr : isExpr e with
      | true => exact (sound_reads hK i e true d E (ok1 hr) hc hl σ t o σ' hA h).sub (fun _ h => h) (fun _ h => h) (fun _ h => reads_infer h)
      | false =>
        refine (rd_run h).sub (fun _ h => h) (fun _ h => h) ?_
        intro q hq
        simpa [inferOf, hr] using hq
    cases h with
    | leaves h hv => exact ih _ _ _ h
    | next h1 h2 =>
      cases h2
      rw [List.append_nil]
      exact ih _ _ _ h1
  | .brk, v, d, E, _, _, _, σ, _, o, σ', hA, h => by cases h; exact rd_nil
  | .nxt, v, d, E, _, _, _, σ, _, o, σ', hA, h => by cases h; exact rd_nil
  | .opWrite x e, v, d, E, ok, _, _, _, _, _, _, _, _ => by simp [Ok] at ok
  | .other e, v, d, E, ok, _, _, σ, t, o, σ', hA, h => rd_run (e := .other e) h
theorem sound_readsC (hK : Right W K) (i : Nat) : ∀ (ws : Clauses) (v : Bool) (d : Nat) (E : Env), OkC W K v d ws E →
    (sitesC ws).count i ≤ 1 → i ∉ loopSitesC ws →
    ∀ (last : Beh W) (σ : Store W) (t : List (Nat × W.V)) (o : Out W.V) (σ' : Store W), Agrees W E σ → runClauses W ws last σ t o σ' →
      ∃ t₁ t₂, t = t₁ ++ t₂ ∧ Rd W i (sitesC ws) t₁ (trackClauses K d ws E).reads ∧ (t₂ = [] ∨ last σ t₂ o σ')
  | .nil, v, d, E, _, _, _, last, σ, t, o, σ', _, h => ⟨[], t, rfl, rd_nil, .inr h⟩
  | .cons c b l, v, d, E, ok, hc, hl, last, σ, _, o, σ', hA, h => by
    simp only [OkC] at ok
    obtain ⟨okc, okb, okl⟩ := ok
    have h1' : (sites c).count i + (sites b).count i ≤ 1 := by cnt
    have h2' : (sites c ++ sites b).count i + (sitesC l).count i ≤ 1 := by cnt
    have hcl := readsC_sites K l d E
    cases h with
    | leaves h hv =>
      refine ⟨_, [], (List.append_nil _).symm, ?_, .inl rfl⟩
      exact (rd_append (rd_append (rd_run h) (rd_track b d E) h1') (rd_recorded hcl) h2').sub (fun _ h => h)
        (fun _ h => List.mem_append_left _ (List.mem_append_left _ h)) (fun _ h => h)
    | next h1 h2 =>
      obtain ⟨rfl, -⟩ := run_inert okc h1
      cases h2 with
      | left h2 =>
        refine ⟨_, [], (List.append_nil _).symm, ?_, .inl rfl⟩
        have gb := sound_reads hK i b v d E okb (by cnt) (by cnt) _ _ _ _ hA h2
        exact (rd_append (rd_append (rd_run h1) gb h1') (rd_recorded hcl) h2').sub (fun _ h => h) (fun _ h => List.mem_append_left _ h) (fun _ h => h)
      | right h2 =>
        obtain ⟨t₁, t₂, rfl, k1, k2⟩ := sound_readsC hK i l v d E okl (by cnt) (by cnt) last _ _ _ _ hA h2
        refine ⟨_ ++ t₁, t₂, (List.append_assoc _ _ _).symm, ?_, k2⟩
        exact (rd_append (rd_append (rd_run h1) (rd_track b d E) h1') k1 h2').sub (fun _ h => h) (by simp) (fun _ h => h)
end

end Verif.FlowTypes
