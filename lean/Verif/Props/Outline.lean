import Verif.Spec.Outline

/-!
C76: the outline of a document contains every declaration once, below the class or module which contains it, with the
visibility Ruby gives it if modifiers are used in the plain way — with counterexamples for the others.
-/
namespace Verif.Outline

/-! ## The outline the visitor means -/

/-- An outline: symbols without and with children. -/
inductive Outl where
  | nil
  | leaf (s : Sym) (next : Outl)
  | nest (s : Sym) (inside next : Outl)

def Outl.append : Outl → Outl → Outl
  | .nil, y => y
  | .leaf s x, y => .leaf s (x.append y)
  | .nest s i x, y => .nest s i (x.append y)

def Outl.size : Outl → Nat
  | .nil => 0
  | .leaf _ x => 1 + x.size
  | .nest _ i x => 1 + i.size + x.size

def Outl.flat : Outl → Nat → Option Nat → List (Sym × Option Nat)
  | .nil, _, _ => []
  | .leaf s x, n, p => (s, p) :: x.flat (n + 1) p
  | .nest s i x, n, p => (s, p) :: (i.flat (n + 1) (some n) ++ x.flat (n + 1 + i.size) p)

def Outl.trees : Outl → List Tree
  | .nil => []
  | .leaf s x => .node s [] :: x.trees
  | .nest s i x => .node s i.trees :: x.trees

theorem Outl.flat_length : ∀ (o : Outl) n p, (o.flat n p).length = o.size
  | .nil, _, _ => rfl
  | .leaf _ x, n, p => by simp [Outl.flat, Outl.size, Outl.flat_length x]; omega
  | .nest _ i x, n, p => by simp [Outl.flat, Outl.size, Outl.flat_length x, Outl.flat_length i]; omega

theorem Outl.size_append : ∀ x y : Outl, (x.append y).size = x.size + y.size
  | .nil, y => by simp [Outl.append, Outl.size]
  | .leaf _ x, y => by simp [Outl.append, Outl.size, Outl.size_append x]; omega
  | .nest _ i x, y => by simp [Outl.append, Outl.size, Outl.size_append x]; omega

theorem Outl.flat_append : ∀ (x y : Outl) n p, (x.append y).flat n p = x.flat n p ++ y.flat (n + x.size) p
  | .nil, y, n, p => by simp [Outl.append, Outl.size, Outl.flat]
  | .leaf _ x, y, n, p => by
    simp [Outl.append, Outl.size, Outl.flat, Outl.flat_append x]
    congr 1; omega
  | .nest _ i x, y, n, p => by
    simp [Outl.append, Outl.size, Outl.flat, Outl.flat_append x]
    congr 1; omega

theorem Outl.trees_append : ∀ x y : Outl, (x.append y).trees = x.trees ++ y.trees
  | .nil, y => rfl
  | .leaf _ x, y => by simp [Outl.append, Outl.trees, Outl.trees_append x]
  | .nest _ i x, y => by simp [Outl.append, Outl.trees, Outl.trees_append x]

/-- What the visit of a list of nodes adds, given the stacks of visibilities and of frames. -/
def run : Forest → List Vis → List Bool → Outl × List Vis × List Bool
  | .nil, v, fr => (.nil, v, fr)
  | .node (.cls name valid) a b inside next, v, fr =>
    let r := run inside (.pub :: v) (if valid then false :: fr else fr)
    let t := run next (popVis r.2.1) (popNamespace r.2.2)
    (.nest (symbol name .cls a b (v.headD .pub) none) r.1 t.1, t.2)
  | .node (.mod name valid) a b inside next, v, fr =>
    let r := run inside (.pub :: v) (if valid then false :: fr else fr)
    let t := run next (popVis r.2.1) (popNamespace r.2.2)
    (.nest (symbol name .module a b (v.headD .pub) none) r.1 t.1, t.2)
  | .node .sing _ _ inside next, v, fr =>
    let r := run inside (.pub :: v) (true :: fr)
    let t := run next (popVis r.2.1) (popSingleton r.2.2)
    (r.1.append t.1, t.2)
  | .node (.defn name receiver) a b inside next, v, fr =>
    let r := run inside v fr
    let t := run next r.2.1 r.2.2
    (.leaf (symbol name .method a b (v.headD .pub) (some (receiver || fr.head? == some true))) (r.1.append t.1), t.2)
  | .node (.constant name) a b inside next, v, fr =>
    let r := run inside v fr
    let t := run next r.2.1 r.2.2
    (.leaf (symbol name .constant a b (v.headD .pub) none) (r.1.append t.1), t.2)
  | .node (.call name) _ _ inside next, v, fr =>
    let r := run inside (match visibilityOf name with | some w => setVis w v | none => v) fr
    let t := run next r.2.1 r.2.2
    (r.1.append t.1, t.2)
  | .node .other _ _ inside next, v, fr =>
    let r := run inside v fr
    let t := run next r.2.1 r.2.2
    (r.1.append t.1, t.2)

/-! ## The visitor -/

/-- What a visit does to the state. -/
structure Visited (f : Forest) (s : State) (lo : Nat) : Prop where
  flat : (visit f s).flat = s.flat ++ (run f s.vis s.frames).1.flat s.flat.length s.parent
  vis : (visit f s).vis = (run f s.vis s.frames).2.1
  frames : (visit f s).frames = (run f s.vis s.frames).2.2
  scopes : (visit f s).scopes = s.scopes
  owner : ∀ k, k ≤ lo → (visit f s).owner k = s.owner k

theorem parent_congr {s t : State} {lo : Nat} (hs : t.scopes = s.scopes) (hb : ∀ id ∈ s.scopes.head?, id ≤ lo)
    (ho : ∀ k, k ≤ lo → t.owner k = s.owner k) : t.parent = s.parent := by
  unfold State.parent
  rw [hs]
  cases h : s.scopes with
  | nil => rfl
  | cons id l => exact ho id (hb id (by simp [h]))

theorem starts_le : ∀ (f : Forest) {lo lo' : Nat}, lo' ≤ lo → Starts f lo → Starts f lo'
  | .nil, _, _, _, _ => trivial
  | .node tag a b inside next, lo, lo', hl, h => by
    obtain ⟨h1, h2, h3⟩ := h
    refine ⟨Nat.le_trans hl h1, ?_, starts_le next hl h3⟩
    cases ht : tag.isNamespace with
    | true => simpa [ht] using h2
    | false =>
      simp only [ht] at h2 ⊢
      exact starts_le inside hl h2

theorem visit_run : ∀ (f : Forest) (s : State) (lo : Nat), Starts f lo → (∀ id ∈ s.scopes.head?, id ≤ lo) →
    Visited f s lo
  | .nil, s, lo, _, _ => ⟨by simp [visit, run, Outl.flat], rfl, rfl, rfl, fun _ _ => rfl⟩
  | .node tag a b inside next, s, lo, hst, hb => by
    obtain ⟨h1, h2, h3⟩ := hst
    have two : ∀ (e : State), Visited inside e lo → e.scopes = s.scopes → (∀ k, k ≤ lo → e.owner k = s.owner k) →
        ∀ (x : State → State), (∀ u, (x u).flat = u.flat ∧ (x u).scopes = u.scopes ∧ (x u).owner = u.owner) →
        Visited next (x (visit inside e)) lo →
        (visit next (x (visit inside e))).flat = e.flat ++ ((run inside e.vis e.frames).1.append
            (run next (x (visit inside e)).vis (x (visit inside e)).frames).1).flat e.flat.length s.parent ∧
          (visit next (x (visit inside e))).scopes = s.scopes ∧
          (∀ k, k ≤ lo → (visit next (x (visit inside e))).owner k = s.owner k) := by
      intro e he hes heo x hx hn
      have hp : e.parent = s.parent := parent_congr hes hb heo
      have hxs : (x (visit inside e)).scopes = s.scopes := by rw [(hx _).2.1, he.scopes, hes]
      have hxo : ∀ k, k ≤ lo → (x (visit inside e)).owner k = s.owner k := by
        intro k hk
        rw [(hx _).2.2, he.owner k hk, heo k hk]
      have hxp : (x (visit inside e)).parent = s.parent := parent_congr hxs hb hxo
      refine ⟨?_, ?_, ?_⟩
      · rw [hn.flat, hxp, (hx _).1, he.flat, hp, Outl.flat_append]
        simp [Outl.flat_length]
      · rw [hn.scopes, hxs]
      · intro k hk
        rw [hn.owner k hk, hxo k hk]
    have hnext : ∀ t : State, t.scopes = s.scopes → Visited next t lo :=
      fun t ht => visit_run next t lo h3 (by rw [ht]; exact hb)
    have ns : ∀ (name : String) (kind : Kind) (valid : Bool), Starts inside (a + 1) →
        let e := s.enterNamespace name kind valid a b
        let r := run inside (.pub :: s.vis) (if valid then false :: s.frames else s.frames)
        let u : State := { visit inside e with frames := popNamespace (visit inside e).frames, scopes := (visit inside e).scopes.tail, vis := popVis (visit inside e).vis }
        let t := run next (popVis r.2.1) (popNamespace r.2.2)
        (visit next u).flat = s.flat ++ (Outl.nest (symbol name kind a b (s.vis.headD .pub) none) r.1 t.1).flat s.flat.length s.parent ∧
          (visit next u).vis = t.2.1 ∧ (visit next u).frames = t.2.2 ∧ (visit next u).scopes = s.scopes ∧
          ∀ k, k ≤ lo → (visit next u).owner k = s.owner k := by
      intro name kind valid hin e r u t
      have hi : Visited inside e (a + 1) := visit_run inside e (a + 1) hin (by
        intro id hid
        simp [e, State.enterNamespace] at hid
        omega)
      have hev : e.vis = .pub :: s.vis := rfl
      have hef : e.frames = if valid then false :: s.frames else s.frames := rfl
      have hes : e.scopes = (a + 1) :: s.scopes := rfl
      have hel : e.flat = s.flat ++ [(symbol name kind a b (s.vis.headD .pub) none, s.parent)] := rfl
      have hep : e.parent = some s.flat.length := by simp [e, State.parent, State.enterNamespace]
      have hrun : run inside e.vis e.frames = r := by rw [hev, hef]
      have hus : u.scopes = s.scopes := by
        show (visit inside e).scopes.tail = s.scopes
        rw [hi.scopes, hes]; rfl
      have huo : ∀ k, k ≤ lo → u.owner k = s.owner k := by
        intro k hk
        show (visit inside e).owner k = s.owner k
        rw [hi.owner k (by omega)]
        show (if k = a + 1 then _ else s.owner k) = _
        rw [if_neg (by omega)]
      have hup : u.parent = s.parent := parent_congr hus hb huo
      have huv : u.vis = popVis r.2.1 := by
        show popVis (visit inside e).vis = _
        rw [hi.vis, hrun]
      have huf : u.frames = popNamespace r.2.2 := by
        show popNamespace (visit inside e).frames = _
        rw [hi.frames, hrun]
      have hul : u.flat = s.flat ++ (symbol name kind a b (s.vis.headD .pub) none, s.parent) ::
          r.1.flat (s.flat.length + 1) (some s.flat.length) := by
        show (visit inside e).flat = _
        rw [hi.flat, hrun, hep, hel]
        simp
      have hn := hnext u hus
      have hrt : run next u.vis u.frames = t := by rw [huv, huf]
      refine ⟨?_, ?_, ?_, ?_, ?_⟩
      · rw [hn.flat, hrt, hup, hul]
        simp [Outl.flat, Outl.flat_length]
        congr 1; omega
      · rw [hn.vis, hrt]
      · rw [hn.frames, hrt]
      · rw [hn.scopes, hus]
      · intro k hk
        rw [hn.owner k hk, huo k hk]
    cases tag with
    | cls name valid =>
      obtain ⟨q1, q2, q3, q4, q5⟩ := ns name .cls valid (by simpa [Tag.isNamespace] using h2)
      exact ⟨q1, q2, q3, q4, q5⟩
    | mod name valid =>
      obtain ⟨q1, q2, q3, q4, q5⟩ := ns name .module valid (by simpa [Tag.isNamespace] using h2)
      exact ⟨q1, q2, q3, q4, q5⟩
    | sing =>
      simp only [Tag.isNamespace, Bool.false_eq_true, if_false] at h2
      let e : State := { s with frames := true :: s.frames, vis := .pub :: s.vis }
      let x : State → State := fun u => { u with frames := popSingleton u.frames, vis := popVis u.vis }
      have he : Visited inside e lo := visit_run inside e lo h2 hb
      have hn := hnext (x (visit inside e)) he.scopes
      obtain ⟨q1, q2, q3⟩ := two e he rfl (fun _ _ => rfl) x (fun _ => ⟨rfl, rfl, rfl⟩) hn
      have hv : (x (visit inside e)).vis = popVis (run inside e.vis e.frames).2.1 := by
        show popVis (visit inside e).vis = _
        rw [he.vis]
      have hf : (x (visit inside e)).frames = popSingleton (run inside e.vis e.frames).2.2 := by
        show popSingleton (visit inside e).frames = _
        rw [he.frames]
      refine ⟨?_, ?_, ?_, q2, q3⟩
      · show (visit next (x (visit inside e))).flat = _
        rw [q1, hv, hf]; rfl
      · show (visit next (x (visit inside e))).vis = _
        rw [hn.vis, hv, hf]; rfl
      · show (visit next (x (visit inside e))).frames = _
        rw [hn.frames, hv, hf]; rfl
    | defn name receiver =>
      simp only [Tag.isNamespace, Bool.false_eq_true, if_false] at h2
      let sy := symbol name .method a b (s.vis.headD .pub) (some (receiver || s.frames.head? == some true))
      let e : State := s.add sy
      have he : Visited inside e lo := visit_run inside e lo h2 hb
      have hn := hnext (visit inside e) he.scopes
      obtain ⟨q1, q2, q3⟩ := two e he rfl (fun _ _ => rfl) id (fun _ => ⟨rfl, rfl, rfl⟩) hn
      refine ⟨?_, ?_, ?_, q2, q3⟩
      · show (visit next (visit inside e)).flat = _
        simp only [id] at q1
        rw [q1, he.vis, he.frames]
        simp [e, State.add, run, Outl.flat, sy]
      · show (visit next (visit inside e)).vis = _
        rw [hn.vis, he.vis, he.frames]; rfl
      · show (visit next (visit inside e)).frames = _
        rw [hn.frames, he.vis, he.frames]; rfl
    | constant name =>
      simp only [Tag.isNamespace, Bool.false_eq_true, if_false] at h2
      let sy := symbol name .constant a b (s.vis.headD .pub) none
      let e : State := s.add sy
      have he : Visited inside e lo := visit_run inside e lo h2 hb
      have hn := hnext (visit inside e) he.scopes
      obtain ⟨q1, q2, q3⟩ := two e he rfl (fun _ _ => rfl) id (fun _ => ⟨rfl, rfl, rfl⟩) hn
      refine ⟨?_, ?_, ?_, q2, q3⟩
      · show (visit next (visit inside e)).flat = _
        simp only [id] at q1
        rw [q1, he.vis, he.frames]
        simp [e, State.add, run, Outl.flat, sy]
      · show (visit next (visit inside e)).vis = _
        rw [hn.vis, he.vis, he.frames]; rfl
      · show (visit next (visit inside e)).frames = _
        rw [hn.frames, he.vis, he.frames]; rfl
    | call name =>
      simp only [Tag.isNamespace, Bool.false_eq_true, if_false] at h2
      have main : ∀ w : List Vis, s.enterCall name = { s with vis := w } →
          (match visibilityOf name with | some w => setVis w s.vis | none => s.vis) = w →
          Visited (.node (.call name) a b inside next) s lo := by
        intro w hw hw'
        let e : State := { s with vis := w }
        have he : Visited inside e lo := visit_run inside e lo h2 hb
        have hn := hnext (visit inside e) he.scopes
        obtain ⟨q1, q2, q3⟩ := two e he rfl (fun _ _ => rfl) id (fun _ => ⟨rfl, rfl, rfl⟩) hn
        have hvis : visit (.node (.call name) a b inside next) s = visit next (visit inside e) := by
          show visit next (visit inside (s.enterCall name)) = _
          rw [hw]
        have hrun : run (.node (.call name) a b inside next) s.vis s.frames =
            (((run inside w s.frames).1.append (run next (run inside w s.frames).2.1 (run inside w s.frames).2.2).1),
              (run next (run inside w s.frames).2.1 (run inside w s.frames).2.2).2) := by
          simp only [run]
          rw [hw']
        refine ⟨?_, ?_, ?_, ?_, ?_⟩
        · rw [hvis, hrun]
          simp only [id] at q1
          rw [q1, he.vis, he.frames]
        · rw [hvis, hrun, hn.vis, he.vis, he.frames]
        · rw [hvis, hrun, hn.frames, he.vis, he.frames]
        · rw [hvis]; exact q2
        · rw [hvis]; exact q3
      cases hv : visibilityOf name with
      | none => exact main s.vis (by simp [State.enterCall, hv]) (by simp [hv])
      | some v => exact main (setVis v s.vis) (by simp [State.enterCall, hv]) (by simp [hv])
    | other =>
      simp only [Tag.isNamespace, Bool.false_eq_true, if_false] at h2
      have he : Visited inside s lo := visit_run inside s lo h2 hb
      have hn := hnext (visit inside s) he.scopes
      obtain ⟨q1, q2, q3⟩ := two s he rfl (fun _ _ => rfl) id (fun _ => ⟨rfl, rfl, rfl⟩) hn
      refine ⟨?_, ?_, ?_, q2, q3⟩
      · show (visit next (visit inside s)).flat = _
        simp only [id] at q1
        rw [q1, he.vis, he.frames]; rfl
      · show (visit next (visit inside s)).vis = _
        rw [hn.vis, he.vis, he.frames]; rfl
      · show (visit next (visit inside s)).frames = _
        rw [hn.frames, he.vis, he.frames]; rfl

/-! ## The hierarchy -/

/-- From index `n` on the map has the symbols of the list without children. -/
def Fresh (m : Nat → Option Tree) : Nat → List (Sym × Option Nat) → Prop
  | _, [] => True
  | n, e :: l => m n = some (.node e.1 []) ∧ Fresh m (n + 1) l

theorem fresh_append (m : Nat → Option Tree) : ∀ (l k : List (Sym × Option Nat)) n,
    Fresh m n (l ++ k) ↔ Fresh m n l ∧ Fresh m (n + l.length) k
  | [], k, n => by simp [Fresh]
  | e :: l, k, n => by
    have : n + 1 + l.length = n + (l.length + 1) := by omega
    simp [Fresh, fresh_append m l k (n + 1), and_assoc, this]

theorem fresh_congr {m m' : Nat → Option Tree} : ∀ (l : List (Sym × Option Nat)) n,
    (∀ j, n ≤ j → j < n + l.length → m' j = m j) → Fresh m n l → Fresh m' n l
  | [], _, _, _ => trivial
  | e :: l, n, h, hf => by
    refine ⟨?_, fresh_congr l (n + 1) (fun j h1 h2 => h j (by omega) (by simp; omega)) hf.2⟩
    rw [h n (by omega) (by simp), hf.1]

theorem fresh_leaves : ∀ (l pre : List (Sym × Option Nat)), Fresh (leaves (pre ++ l)) pre.length l
  | [], _ => trivial
  | e :: l, pre => by
    refine ⟨by simp [leaves], ?_⟩
    have := fresh_leaves l (pre ++ [e])
    simpa using this

theorem flipAll_reverse_cons (t : Tree) (ts : List Tree) (c : List Tree) :
    c ++ (flipAll (t :: ts)).reverse = (c ++ (flipAll ts).reverse) ++ [flip t] := by
  simp [flipAll]

theorem flipAll_append : ∀ x y : List Tree, flipAll (x ++ y) = flipAll x ++ flipAll y
  | [], y => rfl
  | t :: x, y => by simp [flipAll, flipAll_append x]

/-- The second pass for symbols below an index: they are moved to the children of it, the last one first. -/
theorem attach_some : ∀ (o : Outl) (n q : Nat), q < n → ∀ (m : Nat → Option Tree) (y : Sym) (c : List Tree),
    m q = some (.node y c) → Fresh m n (o.flat n (some q)) →
    (((o.flat n (some q)).zipIdx n).foldr attach m) q = some (.node y (c ++ (flipAll o.trees).reverse)) ∧
      ∀ j, (j < n ∨ n + o.size ≤ j) → j ≠ q → (((o.flat n (some q)).zipIdx n).foldr attach m) j = m j
  | .nil, n, q, hq, m, y, c, hm, hf => by simp [Outl.flat, Outl.trees, flipAll, hm]
  | .leaf s x, n, q, hq, m, y, c, hm, hf => by
    simp only [Outl.flat] at hf ⊢
    obtain ⟨ih1, ih2⟩ := attach_some x (n + 1) q (by omega) m y c hm hf.2
    simp only [List.zipIdx_cons, List.foldr_cons]
    generalize hg : ((x.flat (n + 1) (some q)).zipIdx (n + 1)).foldr attach m = m1 at ih1 ih2 ⊢
    have hn : m1 n = some (.node s []) := by rw [ih2 n (by omega) (by omega)]; exact hf.1
    have hu : update m1 n none q = some (.node y (c ++ (flipAll x.trees).reverse)) := by
      simp only [update]
      rw [if_neg (by omega), ih1]
    have ha : attach ((s, some q), n) m1 = update (update m1 n none) q
        (some (.node y ((c ++ (flipAll x.trees).reverse) ++ [.node s []]))) := by
      simp only [attach, hn, hu]
    rw [ha]
    refine ⟨?_, ?_⟩
    · simp [update, Outl.trees, flipAll, flip]
    · intro j hj hjq
      simp only [Outl.size] at hj
      simp only [update]
      rw [if_neg hjq, if_neg (by omega), ih2 j (by omega) hjq]
  | .nest s i x, n, q, hq, m, y, c, hm, hf => by
    simp only [Outl.flat] at hf ⊢
    obtain ⟨hf0, hf'⟩ := hf
    rw [fresh_append] at hf'
    obtain ⟨hfi, hfx⟩ := hf'
    rw [Outl.flat_length] at hfx
    obtain ⟨ih1, ih2⟩ := attach_some x (n + 1 + i.size) q (by omega) m y c hm hfx
    simp only [List.zipIdx_cons, List.foldr_cons, List.zipIdx_append, List.foldr_append, Outl.flat_length]
    generalize hg : ((x.flat (n + 1 + i.size) (some q)).zipIdx (n + 1 + i.size)).foldr attach m = m1 at ih1 ih2 ⊢
    have hn : m1 n = some (.node s []) := by rw [ih2 n (by omega) (by omega)]; exact hf0
    have hfi' : Fresh m1 (n + 1) (i.flat (n + 1) (some n)) :=
      fresh_congr _ _ (fun j h1 h2 => by
        rw [Outl.flat_length] at h2
        exact ih2 j (by omega) (by omega)) hfi
    obtain ⟨jh1, jh2⟩ := attach_some i (n + 1) n (by omega) m1 s [] hn hfi'
    generalize hg2 : ((i.flat (n + 1) (some n)).zipIdx (n + 1)).foldr attach m1 = m2 at jh1 jh2 ⊢
    have hq2 : m2 q = some (.node y (c ++ (flipAll x.trees).reverse)) := by
      rw [jh2 q (by omega) (by omega), ih1]
    have hu : update m2 n none q = some (.node y (c ++ (flipAll x.trees).reverse)) := by
      simp only [update]
      rw [if_neg (by omega), hq2]
    have ha : attach ((s, some q), n) m2 = update (update m2 n none) q
        (some (.node y ((c ++ (flipAll x.trees).reverse) ++ [.node s (flipAll i.trees).reverse]))) := by
      simp only [attach, jh1, hu, List.nil_append]
    rw [ha]
    refine ⟨?_, ?_⟩
    · simp [update, Outl.trees, flipAll, flip]
    · intro j hj hjq
      simp only [Outl.size] at hj
      simp only [update]
      rw [if_neg hjq, if_neg (by omega), jh2 j (by omega) (by omega), ih2 j (by omega) hjq]

theorem collect_some (m : Nat → Option Tree) : ∀ (o : Outl) (n k q : Nat), collect m ((o.flat n (some q)).zipIdx k) = []
  | .nil, _, _, _ => rfl
  | .leaf s x, n, k, q => by
    have := collect_some m x (n + 1) (k + 1) q
    simpa [collect, Outl.flat] using this
  | .nest s i x, n, k, q => by
    have h1 := collect_some m i (n + 1) (k + 1) n
    have h2 := collect_some m x (n + 1 + i.size) (k + 1 + i.size) q
    simp only [collect] at h1 h2 ⊢
    simp only [Outl.flat, List.zipIdx_cons, List.filterMap_cons, List.zipIdx_append, List.filterMap_append, h1,
      Outl.flat_length, h2]
    simp

theorem collect_congr {m m' : Nat → Option Tree} : ∀ (l : List (Sym × Option Nat)) (n : Nat),
    (∀ j, n ≤ j → j < n + l.length → m' j = m j) → collect m' (l.zipIdx n) = collect m (l.zipIdx n)
  | [], _, _ => rfl
  | e :: l, n, h => by
    have ih := collect_congr l (n + 1) (fun j h1 h2 => h j (by omega) (by simp; omega))
    simp only [collect] at ih ⊢
    simp only [List.zipIdx_cons, List.filterMap_cons, ih, h n (by omega) (by simp)]

/-- The second and the third pass for symbols without parent. -/
theorem attach_none : ∀ (o : Outl) (n : Nat) (m : Nat → Option Tree), Fresh m n (o.flat n none) →
    collect (((o.flat n none).zipIdx n).foldr attach m) ((o.flat n none).zipIdx n) = flipAll o.trees ∧
      ∀ j, (j < n ∨ n + o.size ≤ j) → (((o.flat n none).zipIdx n).foldr attach m) j = m j
  | .nil, n, m, hf => by simp [Outl.flat, Outl.trees, flipAll, collect]
  | .leaf s x, n, m, hf => by
    simp only [Outl.flat] at hf ⊢
    obtain ⟨ih1, ih2⟩ := attach_none x (n + 1) m hf.2
    simp only [List.zipIdx_cons, List.foldr_cons]
    generalize hg : ((x.flat (n + 1) none).zipIdx (n + 1)).foldr attach m = m1 at ih1 ih2 ⊢
    have hn : m1 n = some (.node s []) := by rw [ih2 n (by omega)]; exact hf.1
    have ha : attach ((s, none), n) m1 = m1 := rfl
    rw [ha]
    refine ⟨?_, ?_⟩
    · simp only [collect] at ih1 ⊢
      simp [hn, ih1, Outl.trees, flipAll, flip]
    · intro j hj
      simp only [Outl.size] at hj
      exact ih2 j (by omega)
  | .nest s i x, n, m, hf => by
    simp only [Outl.flat] at hf ⊢
    obtain ⟨hf0, hf'⟩ := hf
    rw [fresh_append] at hf'
    obtain ⟨hfi, hfx⟩ := hf'
    rw [Outl.flat_length] at hfx
    obtain ⟨ih1, ih2⟩ := attach_none x (n + 1 + i.size) m hfx
    simp only [List.zipIdx_cons, List.foldr_cons, List.zipIdx_append, List.foldr_append, Outl.flat_length]
    generalize hg : ((x.flat (n + 1 + i.size) none).zipIdx (n + 1 + i.size)).foldr attach m = m1 at ih1 ih2 ⊢
    have hn : m1 n = some (.node s []) := by rw [ih2 n (by omega)]; exact hf0
    have hfi' : Fresh m1 (n + 1) (i.flat (n + 1) (some n)) :=
      fresh_congr _ _ (fun j h1 h2 => by
        rw [Outl.flat_length] at h2
        exact ih2 j (by omega)) hfi
    obtain ⟨jh1, jh2⟩ := attach_some i (n + 1) n (by omega) m1 s [] hn hfi'
    generalize hg2 : ((i.flat (n + 1) (some n)).zipIdx (n + 1)).foldr attach m1 = m2 at jh1 jh2 ⊢
    have ha : attach ((s, none), n) m2 = m2 := rfl
    rw [ha]
    have hc : collect m2 ((x.flat (n + 1 + i.size) none).zipIdx (n + 1 + i.size)) = flipAll x.trees := by
      rw [← ih1]
      exact collect_congr _ _ (fun j h1 h2 => jh2 j (by omega) (by omega))
    have hs := collect_some m2 i (n + 1) (n + 1) n
    refine ⟨?_, ?_⟩
    · simp only [collect] at hc hs ⊢
      simp only [List.filterMap_cons, List.filterMap_append, hs, hc]
      simp [jh1, Outl.trees, flipAll, flip]
    · intro j hj
      simp only [Outl.size] at hj
      rw [jh2 j (by omega) (by omega), ih2 j (by omega)]

theorem build_flat (o : Outl) : build (o.flat 0 none) = flipAll o.trees := by
  have hf := fresh_leaves (o.flat 0 none) []
  exact (attach_none o 0 _ hf).1

theorem hierarchy_run (f : Forest) (lo : Nat) (h : Starts f lo) :
    hierarchy f = flipAll (run f [.pub] []).1.trees := by
  have hv := (visit_run f State.new lo h (by simp [State.new])).flat
  unfold hierarchy
  rw [hv]
  have : State.new.flat = [] := rfl
  rw [this, List.nil_append]
  exact build_flat _

/-! ## Where symbols are -/

theorem bareAll_append : ∀ x y : List Tree, bareAll (x ++ y) = bareAll x ++ bareAll y
  | [], y => rfl
  | t :: x, y => by simp [bareAll, bareAll_append x]

theorem bareAll_reverse : ∀ x : List Tree, bareAll x.reverse = (bareAll x).reverse
  | [] => rfl
  | t :: x => by simp [bareAll, bareAll_append, bareAll_reverse x]

mutual
theorem bare_flip : ∀ t : Tree, bare (flip t) = flip (bare t)
  | .node s c => by simp only [flip, bare, bareAll_reverse, bareAll_flipAll c]
theorem bareAll_flipAll : ∀ l : List Tree, bareAll (flipAll l) = flipAll (bareAll l)
  | [] => rfl
  | t :: l => by simp only [flipAll, bareAll, bare_flip t, bareAll_flipAll l]
end

theorem run_nest : ∀ (f : Forest) (v : List Vis) (fr : List Bool), bareAll (run f v fr).1.trees = nest f
  | .nil, _, _ => rfl
  | .node tag a b inside next, v, fr => by
    cases tag <;>
      simp only [run, Outl.trees, Outl.trees_append, bareAll, bare, bareAll_append, nest, run_nest inside, run_nest next] <;>
      rfl

/-- Every class, module, method and constant of a file is in the outline, directly below the innermost class or module
which contains it, or at the top; what stands at the top is in the order of the source, and the children of every
symbol are in the opposite order. -/
theorem c76_shape (f : Forest) (h : Starts f 0) : bareAll (hierarchy f) = flipAll (nest f) := by
  rw [hierarchy_run f 0 h, bareAll_flipAll, run_nest]

theorem symbolsAll_append : ∀ x y : List Tree, symbolsAll (x ++ y) = symbolsAll x ++ symbolsAll y
  | [], y => rfl
  | t :: x, y => by simp [symbolsAll, symbolsAll_append x]

theorem symbolsAll_reverse : ∀ x : List Tree, (symbolsAll x.reverse).Perm (symbolsAll x)
  | [] => List.Perm.refl _
  | t :: x => by
    simp only [List.reverse_cons, symbolsAll_append, symbolsAll, List.append_nil]
    exact List.perm_append_comm.trans ((symbolsAll_reverse x).append_left _)

mutual
theorem symbolsOf_flip : ∀ t : Tree, (symbolsOf (flip t)).Perm (symbolsOf t)
  | .node s c => by
    simp only [flip, symbolsOf]
    exact List.Perm.cons _ ((symbolsAll_reverse _).trans (symbolsAll_flip c))
theorem symbolsAll_flip : ∀ l : List Tree, (symbolsAll (flipAll l)).Perm (symbolsAll l)
  | [] => List.Perm.refl _
  | t :: l => by
    simp only [flipAll, symbolsAll]
    exact (symbolsOf_flip t).append (symbolsAll_flip l)
end

/-- What a symbol says about the declaration. -/
def Sym.key (s : Sym) : Kind × String × Nat × Nat := (s.kind, s.name, s.first, s.last)

mutual
theorem key_bare : ∀ t : Tree, (symbolsOf (bare t)).map Sym.key = (symbolsOf t).map Sym.key
  | .node s c => by simp only [bare, symbolsOf, List.map_cons, key_bareAll c, Sym.key]
theorem key_bareAll : ∀ l : List Tree, (symbolsAll (bareAll l)).map Sym.key = (symbolsAll l).map Sym.key
  | [] => rfl
  | t :: l => by simp only [bareAll, symbolsAll, List.map_append, key_bare t, key_bareAll l]
end

theorem nest_declared : ∀ f : Forest, (symbolsAll (nest f)).map Sym.key = declared f
  | .nil => rfl
  | .node tag a b inside next => by
    cases tag <;>
      simp [nest, declared, symbolsAll, symbolsOf, symbolsAll_append, nest_declared inside, nest_declared next,
        Sym.key, symbol]

/-- No declaration of a file is missing in the outline, none is there twice, and nothing else is there. -/
theorem c76_complete (f : Forest) (h : Starts f 0) :
    ((symbolsAll (hierarchy f)).map Sym.key).Perm (declared f) := by
  have h1 : (symbolsAll (hierarchy f)).map Sym.key = (symbolsAll (bareAll (hierarchy f))).map Sym.key :=
    (key_bareAll _).symm
  rw [h1, c76_shape f h, ← nest_declared f]
  exact (symbolsAll_flip _).map _

theorem nested_append {lo hi : Nat} {x y : List Tree} (hx : Nested lo hi x) (hy : Nested lo hi y) :
    Nested lo hi (x ++ y) := by
  induction x with
  | nil => exact hy
  | cons t x ih =>
    cases hx with
    | cons h1 h2 h3 h4 h5 h6 h7 => exact .cons h1 h2 h3 h4 h5 h6 (ih h7)

theorem nested_reverse {lo hi : Nat} : ∀ {x : List Tree}, Nested lo hi x → Nested lo hi x.reverse
  | [], _ => .nil
  | t :: x, h => by
    cases h with
    | cons h1 h2 h3 h4 h5 h6 h7 =>
      rw [List.reverse_cons]
      exact nested_append (nested_reverse h7) (.cons h1 h2 h3 h4 h5 h6 .nil)

mutual
theorem nested_flip : ∀ (t : Tree) {lo hi : Nat}, Nested lo hi [t] → Nested lo hi [flip t]
  | .node s c, lo, hi, h => by
    cases h with
    | cons h1 h2 h3 h4 h5 h6 h7 => exact .cons h1 h2 h3 h4 h5 (nested_reverse (nested_flipAll c h6)) .nil
theorem nested_flipAll : ∀ (l : List Tree) {lo hi : Nat}, Nested lo hi l → Nested lo hi (flipAll l)
  | [], _, _, _ => .nil
  | t :: l, lo, hi, h => by
    cases h with
    | cons h1 h2 h3 h4 h5 h6 h7 =>
      have ht := nested_flip _ (Nested.cons h1 h2 h3 h4 h5 h6 .nil)
      exact nested_append ht (nested_flipAll l h7)
end

theorem nested_widen {lo hi lo' hi' : Nat} (h1 : lo' ≤ lo) (h2 : hi ≤ hi') {l : List Tree} (h : Nested lo hi l) :
    Nested lo' hi' l := by
  induction l with
  | nil => exact .nil
  | cons t l ih =>
    cases h with
    | cons a1 a2 a3 a4 a5 a6 a7 => exact .cons (Nat.le_trans h1 a1) a2 a3 a4 (Nat.le_trans a5 h2) a6 (ih a7)

theorem nested_run : ∀ (f : Forest) (lo hi : Nat), Placed f lo hi → ∀ (v : List Vis) (fr : List Bool),
    Nested lo hi (run f v fr).1.trees
  | .nil, _, _, _, _, _ => .nil
  | .node tag a b inside next, lo, hi, h, v, fr => by
    obtain ⟨h1, h2, h3, h4, h5⟩ := h
    have wide : ∀ lo', a ≤ lo' → ∀ v fr, Placed inside lo' b → Nested lo hi (run inside v fr).1.trees :=
      fun lo' hl v fr hp => nested_widen (by omega) h3 (nested_run inside lo' b hp v fr)
    cases tag with
    | cls name valid =>
      exact .cons h1 (Nat.le_refl a) h2 (Nat.le_refl b) h3
        (nested_widen (Nat.le_succ a) (Nat.le_refl b) (nested_run inside (a + 1) b h4 _ _)) (nested_run next lo hi h5 _ _)
    | mod name valid =>
      exact .cons h1 (Nat.le_refl a) h2 (Nat.le_refl b) h3
        (nested_widen (Nat.le_succ a) (Nat.le_refl b) (nested_run inside (a + 1) b h4 _ _)) (nested_run next lo hi h5 _ _)
    | defn name receiver =>
      simp only [run, Outl.trees, Outl.trees_append]
      exact .cons h1 (Nat.le_refl a) h2 (Nat.le_refl b) h3 .nil
        (nested_append (wide a (Nat.le_refl a) _ _ h4) (nested_run next lo hi h5 _ _))
    | constant name =>
      simp only [run, Outl.trees, Outl.trees_append]
      exact .cons h1 (Nat.le_refl a) h2 (Nat.le_refl b) h3 .nil
        (nested_append (wide a (Nat.le_refl a) _ _ h4) (nested_run next lo hi h5 _ _))
    | sing =>
      simp only [run, Outl.trees_append]
      exact nested_append (wide a (Nat.le_refl a) _ _ h4) (nested_run next lo hi h5 _ _)
    | call name =>
      simp only [run, Outl.trees_append]
      exact nested_append (wide a (Nat.le_refl a) _ _ h4) (nested_run next lo hi h5 _ _)
    | other =>
      simp only [run, Outl.trees_append]
      exact nested_append (wide a (Nat.le_refl a) _ _ h4) (nested_run next lo hi h5 _ _)

theorem placed_le : ∀ (f : Forest) {lo hi lo' : Nat}, lo' ≤ lo → Placed f lo hi → Placed f lo' hi
  | .nil, _, _, _, _, _ => trivial
  | .node tag a b inside next, lo, hi, lo', hl, h =>
    ⟨Nat.le_trans hl h.1, h.2.1, h.2.2.1, h.2.2.2.1, placed_le next hl h.2.2.2.2⟩

theorem placed_starts : ∀ (f : Forest) {lo hi : Nat}, Placed f lo hi → Starts f lo
  | .nil, _, _, _ => trivial
  | .node tag a b inside next, lo, hi, h => by
    obtain ⟨h1, h2, h3, h4, h5⟩ := h
    refine ⟨h1, ?_, placed_starts next h5⟩
    cases ht : tag.isNamespace with
    | true =>
      simp only [ht, if_true] at h4 ⊢
      exact placed_starts inside h4
    | false =>
      simp only [ht, Bool.false_eq_true, if_false] at h4 ⊢
      exact placed_starts inside (placed_le inside h1 h4)

/-- The range of every symbol contains those of its children and its selection range, if every node of the syntax tree
lies within its parent. -/
theorem c76_ranges (f : Forest) (lo hi : Nat) (h : Placed f lo hi) : Nested lo hi (hierarchy f) := by
  rw [hierarchy_run f lo (placed_starts f h)]
  exact nested_flipAll _ (nested_run f lo hi h _ _)

/-! ## Visibility and kind of method -/

theorem visibilityOf_modifier (name : String) : visibilityOf name = modifier name := by
  unfold visibilityOf modifier
  split
  · next h => subst h; rfl
  · split
    · next h => subst h; rfl
    · split
      · next h => subst h; rfl
      · next h1 h2 h3 =>
        split
        · exact absurd rfl h1
        · exact absurd rfl h2
        · exact absurd rfl h3
        · rfl

theorem silent_vis : ∀ (f : Forest) (v : Vis) (sg : Bool), Silent f → (ruby f v sg).2 = v
  | .nil, _, _, _ => rfl
  | .node tag a b inside next, v, sg, h => by
    obtain ⟨h1, h2⟩ := h
    have hn := silent_vis next v sg h2
    cases tag with
    | other =>
      simp only [ruby]
      rw [silent_vis inside v sg h1]
      exact hn
    | call name =>
      cases inside with
      | nil =>
        simp only [ruby]
        rw [h1.1]
        exact hn
      | node t' a' b' i' n' => exact hn
    | _ => exact hn

theorem quiet_trees : ∀ (f : Forest) (v : List Vis) (fr : List Bool), Quiet f → run f v fr = (.nil, v, fr)
  | .nil, _, _, _ => rfl
  | .node tag a b inside next, v, fr, h => by
    obtain ⟨h1, h2, h3⟩ := h
    cases tag with
    | other => simp only [run, quiet_trees inside v fr h2, quiet_trees next v fr h3]; rfl
    | call name =>
      simp only [run, visibilityOf_modifier, h1]
      rw [quiet_trees inside v fr h2]
      simp only [quiet_trees next v fr h3]; rfl
    | _ => exact h1.elim

theorem quiet_ruby : ∀ (f : Forest) (v : Vis) (sg : Bool), Quiet f → ruby f v sg = ([], v)
  | .nil, _, _, _ => rfl
  | .node tag a b inside next, v, sg, h => by
    obtain ⟨h1, h2, h3⟩ := h
    cases tag with
    | other => simp [ruby, quiet_ruby inside v sg h2, quiet_ruby next v sg h3]
    | call name =>
      cases inside with
      | nil => simp [ruby, h1, quiet_ruby next v sg h3]
      | node t' a' b' i' n' =>
        simp only [ruby, h1, Option.getD_none]
        rw [quiet_ruby next v sg h3, quiet_ruby (.node t' a' b' i' n') v sg h2]
        rfl
    | _ => exact h1.elim

theorem run_ruby : ∀ (f : Forest) (v : Vis) (vs : List Vis) (fr : List Bool), Plain f → Named f →
    (run f (v :: vs) fr).1.trees = (ruby f v (fr.head? == some true)).1 ∧
      (run f (v :: vs) fr).2.1 = (ruby f v (fr.head? == some true)).2 :: vs ∧ (run f (v :: vs) fr).2.2 = fr
  | .nil, _, _, _, _, _ => ⟨rfl, rfl, rfl⟩
  | .node tag a b inside next, v, vs, fr, hp, hn => by
    obtain ⟨p1, p2⟩ := hp
    obtain ⟨n1, n2, n3⟩ := hn
    obtain ⟨a1, a2, a3⟩ := run_ruby next v vs fr p2 n3
    cases tag with
    | cls name valid =>
      have n1 : valid = true := n1
      subst n1
      obtain ⟨i1, i2, i3⟩ := run_ruby inside .pub (v :: vs) (false :: fr) p1 n2
      have hpv : popVis (run inside (.pub :: v :: vs) (false :: fr)).2.1 = v :: vs := by
        rw [i2]; simp [popVis]
      have hpf : popNamespace (run inside (.pub :: v :: vs) (false :: fr)).2.2 = fr := by
        rw [i3]; rfl
      simp only [run, if_true, hpv, hpf, Outl.trees, ruby]
      refine ⟨?_, a2, a3⟩
      rw [a1, i1]; rfl
    | mod name valid =>
      have n1 : valid = true := n1
      subst n1
      obtain ⟨i1, i2, i3⟩ := run_ruby inside .pub (v :: vs) (false :: fr) p1 n2
      have hpv : popVis (run inside (.pub :: v :: vs) (false :: fr)).2.1 = v :: vs := by
        rw [i2]; simp [popVis]
      have hpf : popNamespace (run inside (.pub :: v :: vs) (false :: fr)).2.2 = fr := by
        rw [i3]; rfl
      simp only [run, if_true, hpv, hpf, Outl.trees, ruby]
      refine ⟨?_, a2, a3⟩
      rw [a1, i1]; rfl
    | sing =>
      obtain ⟨i1, i2, i3⟩ := run_ruby inside .pub (v :: vs) (true :: fr) p1 n2
      have hpv : popVis (run inside (.pub :: v :: vs) (true :: fr)).2.1 = v :: vs := by
        rw [i2]; simp [popVis]
      have hpf : popSingleton (run inside (.pub :: v :: vs) (true :: fr)).2.2 = fr := by
        rw [i3]; rfl
      simp only [run, hpv, hpf, Outl.trees_append, ruby]
      refine ⟨?_, a2, a3⟩
      rw [a1, i1]; rfl
    | defn name receiver =>
      simp only [run, quiet_trees inside _ _ p1, Outl.append, Outl.trees, ruby, quiet_ruby inside _ _ p1, List.nil_append]
      refine ⟨?_, a2, a3⟩
      rw [a1]; rfl
    | constant name =>
      obtain ⟨i1, i2, i3⟩ := run_ruby inside v vs fr p1.2 n2
      rw [silent_vis inside v _ p1.1] at i2
      simp only [run, i2, i3, Outl.trees, Outl.trees_append, ruby]
      refine ⟨?_, a2, a3⟩
      rw [a1, i1]; rfl
    | call name =>
      cases hm : modifier name with
      | some w =>
        have hi : inside = .nil := by
          have p1 : if modifier name = none then Silent inside ∧ Plain inside else inside = .nil := p1
          rw [hm] at p1
          simpa using p1
        subst hi
        obtain ⟨b1, b2, b3⟩ := run_ruby next w vs fr p2 n3
        simp only [run, visibilityOf_modifier, hm, setVis, Outl.append, ruby, Option.getD_some]
        exact ⟨b1, b2, b3⟩
      | none =>
        have p1 : if modifier name = none then Silent inside ∧ Plain inside else inside = .nil := p1
        rw [if_pos hm] at p1
        obtain ⟨i1, i2, i3⟩ := run_ruby inside v vs fr p1.2 n2
        rw [silent_vis inside v _ p1.1] at i2
        simp only [run, visibilityOf_modifier, hm]
        rw [i2, i3]
        cases inside with
        | nil =>
          simp only [run, Outl.append, ruby, hm, Option.getD_none]
          exact ⟨a1, a2, a3⟩
        | node t' a' b' i' n' =>
          simp only [ruby, hm, Option.getD_none, Outl.trees_append]
          refine ⟨?_, a2, a3⟩
          rw [a1, i1]
    | other =>
      obtain ⟨i1, i2, i3⟩ := run_ruby inside v vs fr p1 n2
      obtain ⟨b1, b2, b3⟩ := run_ruby next (ruby inside v (fr.head? == some true)).2 vs fr p2 n3
      simp only [run, i2, i3, Outl.trees_append, ruby]
      refine ⟨?_, b2, b3⟩
      rw [b1, i1]

/-- The outline of a file whose visibility modifiers stand alone in the bodies of classes: the tree of its declarations,
with the visibilities Ruby gives them and with the methods of `class << self` and those with a receiver marked as class
methods. -/
theorem c76_tree (f : Forest) (h : Starts f 0) (hp : Plain f) (hn : Named f) :
    hierarchy f = flipAll (ruby f .pub false).1 := by
  rw [hierarchy_run f 0 h, (run_ruby f .pub [] [] hp hn).1]
  rfl

/-- What is shown beside a method: an instance method has its visibility, a class method has none. -/
theorem c76_detail (s : Sym) (h : s.kind = .method) :
    (s.singleton = some true → detail s = ["class method"]) ∧
    (s.singleton = some false → detail s =
      [match s.vis with | .priv => "private" | .prot => "protected" | .pub => "public", "instance method"]) := by
  refine ⟨fun h1 => by simp [detail, h1], fun h1 => ?_⟩
  cases hv : s.vis <;> simp [detail, h1, hv, h]

/-! ## Cases -/

/-- `module M; class A; X = 1; def a; end; private; def b; end; end; class << self; def c; end; end; end`. -/
def sample : Forest :=
  .node (.mod "M" true) 0 100
    (.node (.cls "A" true) 10 60
      (.node (.constant "X") 18 23 (.node .other 22 23 .nil .nil)
        (.node (.defn "a" false) 25 35 .nil
          (.node (.call "private") 37 44 .nil
            (.node (.defn "b" false) 46 56 .nil .nil))))
      (.node .sing 62 95
        (.node (.defn "c" false) 77 87 .nil .nil) .nil)) .nil

theorem c76_example : Starts sample 0 ∧ Plain sample ∧ Named sample ∧ Placed sample 0 100 ∧
    (symbolsAll (hierarchy sample)).map (fun s => (s.name, s.vis, s.singleton)) =
      [("M", .pub, none), ("c", .pub, some true), ("A", .pub, none), ("b", .priv, some false),
        ("a", .pub, some false), ("X", .pub, none)] := by
  refine ⟨?_, ?_, ?_, ?_, by decide +kernel⟩
  · simp [sample, Starts, Tag.isNamespace]
  · simp [sample, Plain, Silent, Quiet, modifier]
  · simp [sample, Named]
  · simp [sample, Placed, Tag.isNamespace]

/-- The children of a class are in the opposite order of the source: for two methods the second one comes first. -/
theorem c76_order_fails : ∃ f : Forest, Placed f 0 100 ∧ Plain f ∧ Named f ∧
    (symbolsAll (hierarchy f)).map Sym.first = [0, 30, 10] :=
  ⟨.node (.cls "A" true) 0 50 (.node (.defn "a" false) 10 20 .nil (.node (.defn "b" false) 30 40 .nil .nil)) .nil,
    by simp [Placed, Tag.isNamespace], by simp [Plain, Quiet], by simp [Named], by decide +kernel⟩

/-- `def a; end; private :a; def b; end` in a class: the outline shows `a` as public and `b` as private, Ruby has them the
other way round. -/
theorem c76_named_fails : ∃ f : Forest, Placed f 0 100 ∧ Named f ∧
    f = .node (.cls "A" true) 0 90 (.node (.defn "a" false) 10 20 .nil
      (.node (.call "private") 22 32 (.node .other 30 32 .nil .nil) (.node (.defn "b" false) 40 50 .nil .nil))) .nil ∧
    (symbolsAll (hierarchy f)).map (fun s => (s.name, detail s)) =
      [("A", []), ("b", ["private", "instance method"]), ("a", ["public", "instance method"])] ∧
    (symbolsAll (ruby f .pub false).1).map (fun s => (s.name, s.vis)) = [("A", .pub), ("a", .pub), ("b", .pub)] :=
  ⟨_, by simp [Placed, Tag.isNamespace], by simp [Named], rfl, by decide +kernel, by decide +kernel⟩

/-- `private def a; end; def b; end` in a class: `b` is shown as private too. -/
theorem c76_private_def_fails : ∃ f : Forest, Placed f 0 100 ∧ Named f ∧
    f = .node (.cls "A" true) 0 90 (.node (.call "private") 10 30 (.node (.defn "a" false) 18 30 .nil .nil)
      (.node (.defn "b" false) 40 50 .nil .nil)) .nil ∧
    (symbolsAll (hierarchy f)).map (fun s => (s.name, s.vis)) = [("A", .pub), ("b", .priv), ("a", .priv)] ∧
    (symbolsAll (ruby f .pub false).1).map (fun s => (s.name, s.vis)) = [("A", .pub), ("a", .priv), ("b", .pub)] :=
  ⟨_, by simp [Placed, Tag.isNamespace], by simp [Named], rfl, by decide +kernel, by decide +kernel⟩

/-- `private; def a; post.public; end; def b; end` in a class: a call of a method named `public` of something else, in the
body of a method, makes the methods after it public. -/
theorem c76_receiver_fails : ∃ f : Forest, Placed f 0 100 ∧ Named f ∧
    f = .node (.cls "A" true) 0 90 (.node (.call "private") 10 17 .nil (.node (.defn "a" false) 18 38
      (.node (.call "public") 24 35 (.node (.call "post") 24 28 .nil .nil) .nil)
      (.node (.defn "b" false) 40 50 .nil .nil))) .nil ∧
    (symbolsAll (hierarchy f)).map (fun s => (s.name, s.vis)) = [("A", .pub), ("b", .pub), ("a", .priv)] ∧
    (symbolsAll (ruby f .pub false).1).map (fun s => (s.name, s.vis)) = [("A", .pub), ("a", .priv), ("b", .priv)] :=
  ⟨_, by simp [Placed, Tag.isNamespace], by simp [Named], rfl, by decide +kernel, by decide +kernel⟩

/-- `private; X = 1; class B; end` in a class: the constant and the class are shown as private, which `private` does not
make them. -/
theorem c76_constant_fails : ∃ f : Forest, Placed f 0 100 ∧ Named f ∧ Plain f ∧
    f = .node (.cls "A" true) 0 90 (.node (.call "private") 10 17 .nil (.node (.constant "X") 20 25 .nil
      (.node (.cls "B" true) 30 40 .nil .nil))) .nil ∧
    (symbolsAll (hierarchy f)).map (fun s => (s.name, detail s)) = [("A", []), ("B", ["private"]), ("X", ["private"])] :=
  ⟨_, by simp [Placed, Tag.isNamespace], by simp [Named], by simp [Plain, Silent, modifier], rfl, by decide +kernel⟩

/-- `class << self; class A; class b; end; def x; end; end; end`: a class whose name is no constant (while it is being
typed) makes the visitor forget the class around it, and the instance method `x` of `A` is shown as a class method. -/
theorem c76_invalid_fails : ∃ f : Forest, Placed f 0 100 ∧ Plain f ∧ ¬ Named f ∧
    f = .node .sing 0 90 (.node (.cls "A" true) 15 80 (.node (.cls "b" false) 25 40 .nil
      (.node (.defn "x" false) 45 55 .nil .nil)) .nil) .nil ∧
    (symbolsAll (hierarchy f)).map (fun s => (s.name, s.singleton)) = [("A", none), ("x", some true), ("b", none)] ∧
    (symbolsAll (ruby f .pub false).1).map (fun s => (s.name, s.singleton)) = [("A", none), ("b", none), ("x", some false)] :=
  ⟨_, by simp [Placed, Tag.isNamespace], by simp [Plain, Quiet], by simp [Named], rfl, by decide +kernel, by decide +kernel⟩

/-- The methods `attr_accessor` defines are not in the outline. -/
theorem c76_attribute_fails : hierarchy (.node (.call "attr_accessor") 0 16 (.node .other 14 16 .nil .nil) .nil) = [] := by
  rfl

end Verif.Outline
