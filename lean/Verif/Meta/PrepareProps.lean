import Verif.Meta.PrepareModel
import Verif.Meta.Props
import Verif.Path.Props

/-!
# C95, C96: reading metadataset files, options of the entry points
-/

namespace Verif.Meta

open Verif.Path

variable {V : Type}

/-! ## Specification -/

/-- The references of a split -/
def Split.items : Split V → List (Item V)
  | .one i => [i]
  | .blend l => l.map (·.2)

/-- The strings by which an item refers to files and datasets -/
def Item.paths : Item V → List Str
  | .ref s _ _ => [s]
  | .join _ _ cols => cols.map (·.1)

/-- The location `r` (a list of names) below the directory `P` -/
def below (P : EPath) (r : List Str) : EPath := { P with path := { P.path with names := P.path.names ++ r } }

/-- Following the names `l` from a directory at depth `d` never leaves the tree. -/
def Inside : Nat → List Str → Prop
  | _, [] => True
  | d, w :: l => if w = "..".toList then 0 < d ∧ Inside (d - 1) l else Inside (d + 1) l

instance instDecidableInside : ∀ (d : Nat) (l : List Str), Decidable (Inside d l)
  | _, [] => isTrue trivial
  | d, w :: l => by
    unfold Inside
    have := fun d => instDecidableInside d l
    split <;> infer_instance

/-- The tree below `P` on the disk `A` is the tree below `Q` on `B`. -/
def SameTree (A : Disk V) (P : EPath) (B : Disk V) (Q : EPath) : Prop := ∀ r, "..".toList ∉ r → A (below P r) = B (below Q r)

/-- `P` is a directory; all references in the metadatasets below it are relative paths that stay below it. -/
def Closed (A : Disk V) (P : EPath) : Prop :=
  ∀ r f, "..".toList ∉ r → A (below P r) = .file f → r ≠ [] ∧
    ∀ x ∈ f, ∀ i ∈ x.2.items, ∀ s ∈ i.paths, splitProtocol s = none ∧ (parse s).root = .rel ∧ Inside (r.length - 1) (parse s).names

/-- The metadataset file `p` refers, in some split, to the metadataset file `q`; relative references start from the directory of `p`. -/
def Refers (A : Disk V) (p q : EPath) : Prop :=
  ∃ f g s o dc, A p = .file f ∧ (∃ x ∈ f, Item.ref s o dc ∈ x.2.items) ∧ p.parent.divStr s = some q ∧ A q = .file g

/-- What a single item needs, seen from the directory `d`: a reference leads to a dataset, or to a metadataset file (then without `dataset_config`
and `split_config`); all parts of a join lead to datasets. -/
def ItemOk (A : Disk V) (d : EPath) : Item V → Prop
  | .ref s o dc =>
    ∃ q, d.divStr s = some q ∧
      ((∃ y, A q = .dataset y) ∨ ((∃ f, A q = .file f) ∧ dc = "dataset.yaml" ∧ o.splitConfig = "split.yaml"))
  | .join _ dc cols => dc = "dataset.yaml" ∧ ∀ c ∈ cols, ∃ q y, d.divStr c.1 = some q ∧ A q = .dataset y

/-- A metadataset file all of whose references, followed through all files, lead somewhere, and not around in circles -/
inductive Sound (A : Disk V) : EPath → Prop where
  | mk (p : EPath) (f : File V) (hf : A p = .file f) (ok : ∀ x ∈ f, ∀ i ∈ x.2.items, ItemOk A p.parent i)
      (next : ∀ q, Refers A p q → Sound A q) : Sound A p

/-! ## Prepared items agree if what they lead to agrees -/

/-- From two directories the string leads to the same. -/
def Sim (A : Disk V) (n : Nat) (pa : EPath) (B : Disk V) (m : Nat) (pb : EPath) (s : Str) : Prop :=
  pa.divStr s = none ∨ ∃ q q', pa.divStr s = some q ∧ pb.divStr s = some q' ∧ A q = B q' ∧
    ∀ L, loadFile A n q = some L → loadFile B m q' = some L

variable {A B : Disk V} {n m : Nat} {pa pb : EPath}

theorem mapM_imp {α β : Type} {f g : α → Option β} : ∀ {l : List α} {r : List β}, (∀ a ∈ l, ∀ b, f a = some b → g a = some b) →
    l.mapM f = some r → l.mapM g = some r
  | [], r, _, h => by simpa using h
  | a :: l, r, hi, h => by
    simp only [List.mapM_cons, Option.bind_eq_bind, Option.bind_eq_some_iff, Option.pure_def, Option.some.injEq] at h ⊢
    obtain ⟨b, hb, bs, hbs, rfl⟩ := h
    exact ⟨b, hi a (List.mem_cons_self ..) b hb, bs, mapM_imp (fun a ha => hi a (List.mem_cons_of_mem _ ha)) hbs, rfl⟩

theorem prepareItem_sim {i : Item V} (h : ∀ s ∈ i.paths, Sim A n pa B m pb s) {L : Loader V} (e : prepareItem A (loadFile A n) pa i = some L) :
    prepareItem B (loadFile B m) pb i = some L := by
  cases i with
  | ref s o dc =>
    unfold prepareItem at e ⊢
    dsimp only at e ⊢
    rcases h s (by simp [Item.paths]) with h1 | ⟨q, q', h1, h2, h3, h4⟩
    · rw [h1] at e; cases e
    · rw [h1] at e
      rw [h2]
      dsimp only at e ⊢
      rw [h3] at e
      cases hq : B q' with
      | file f =>
        rw [hq] at e
        dsimp only at e ⊢
        split at e
        case isTrue hc =>
          rw [if_pos hc]
          rw [Option.map_eq_some_iff] at e ⊢
          obtain ⟨x, hx, rfl⟩ := e
          exact ⟨x, h4 x hx, rfl⟩
        case isFalse hc => cases e
      | dataset y => rw [hq] at e; exact e
      | nothing => rw [hq] at e; exact e
  | join o dc cols =>
    unfold prepareItem at e ⊢
    dsimp only at e ⊢
    split at e
    case isTrue hc =>
      rw [if_pos hc]
      rw [Option.map_eq_some_iff] at e ⊢
      obtain ⟨x, hx, rfl⟩ := e
      refine ⟨x, mapM_imp (fun c hc b hb => ?_) hx, rfl⟩
      unfold prepareCol at hb ⊢
      rcases h c.1 (List.mem_map.2 ⟨c, hc, rfl⟩) with h1 | ⟨q, q', h1, h2, h3, h4⟩
      · rw [h1] at hb; cases hb
      · rw [h1] at hb
        rw [h2]
        dsimp only at hb ⊢
        rwa [h3] at hb
    case isFalse hc => cases e

theorem prepareBlend_sim : ∀ {b : List (ℚ × Item V)} (_ : ∀ x ∈ b, ∀ s ∈ x.2.paths, Sim A n pa B m pb s) {L : Blend V},
    prepareBlend A (loadFile A n) pa b = some L → prepareBlend B (loadFile B m) pb b = some L
  | [], _, L, e => by unfold prepareBlend at e ⊢; exact e
  | (w, i) :: b, h, L, e => by
    unfold prepareBlend at e ⊢
    cases e1 : prepareItem A (loadFile A n) pa i with
    | none => rw [e1] at e; cases e
    | some x =>
      cases e2 : prepareBlend A (loadFile A n) pa b with
      | none => rw [e1, e2] at e; cases e
      | some y =>
        rw [prepareItem_sim (h _ (List.mem_cons_self ..)) e1, prepareBlend_sim (fun x hx => h x (List.mem_cons_of_mem _ hx)) e2]
        rw [e1, e2] at e
        exact e

theorem prepareSplits_sim : ∀ {f : File V} (_ : ∀ x ∈ f, ∀ i ∈ x.2.items, ∀ s ∈ i.paths, Sim A n pa B m pb s) {L : Splits V},
    prepareSplits A (loadFile A n) pa f = some L → prepareSplits B (loadFile B m) pb f = some L
  | [], _, L, e => by unfold prepareSplits at e ⊢; exact e
  | (name, .one i) :: f, h, L, e => by
    unfold prepareSplits at e ⊢
    cases e1 : prepareItem A (loadFile A n) pa i with
    | none => rw [e1] at e; cases e
    | some x =>
      cases e2 : prepareSplits A (loadFile A n) pa f with
      | none => rw [e1, e2] at e; cases e
      | some y =>
        rw [prepareItem_sim (h _ (List.mem_cons_self ..) i (by simp [Split.items])) e1,
          prepareSplits_sim (fun x hx => h x (List.mem_cons_of_mem _ hx)) e2]
        rw [e1, e2] at e
        exact e
  | (name, .blend b) :: f, h, L, e => by
    unfold prepareSplits at e ⊢
    cases e1 : prepareBlend A (loadFile A n) pa b with
    | none => rw [e1] at e; cases e
    | some x =>
      cases e2 : prepareSplits A (loadFile A n) pa f with
      | none => rw [e1, e2] at e; cases e
      | some y =>
        rw [prepareBlend_sim (fun x hx => h _ (List.mem_cons_self ..) x.2 (List.mem_map.2 ⟨x, hx, rfl⟩)) e1,
          prepareSplits_sim (fun x hx => h x (List.mem_cons_of_mem _ hx)) e2]
        rw [e1, e2] at e
        exact e

/-! ## The bound on the depth does not matter -/

theorem loadFile_succ : ∀ (n : Nat) {p : EPath} {L : Loader V}, loadFile A n p = some L → loadFile A (n + 1) p = some L
  | 0, p, L, e => by unfold loadFile at e; cases e
  | n + 1, p, L, e => by
    unfold loadFile at e ⊢
    cases hp : A p with
    | file f =>
      rw [hp] at e
      dsimp only at e ⊢
      rw [Option.map_eq_some_iff] at e ⊢
      obtain ⟨l, hl, rfl⟩ := e
      refine ⟨l, prepareSplits_sim (fun x hx i hi s hs => ?_) hl, rfl⟩
      cases hd : p.parent.divStr s with
      | none => exact Or.inl hd
      | some q => exact Or.inr ⟨q, q, hd, hd, rfl, fun L h => loadFile_succ n h⟩
    | dataset y => rw [hp] at e; cases e
    | nothing => rw [hp] at e; cases e

theorem loadFile_le {n m : Nat} (h : n ≤ m) {p : EPath} {L : Loader V} (e : loadFile A n p = some L) : loadFile A m p = some L := by
  induction h with
  | refl => exact e
  | step _ ih => exact loadFile_succ _ ih

/-- **C95**: a metadataset file has one meaning: the bound on the depth does not matter. -/
theorem C95_unique {n m : Nat} {p : EPath} {L L' : Loader V} (e : loadFile A n p = some L) (e' : loadFile A m p = some L') : L = L' := by
  have h1 := loadFile_le (Nat.le_max_left n m) e
  have h2 := loadFile_le (Nat.le_max_right n m) e'
  rw [h1] at h2
  exact Option.some.inj h2

/-! ## Moving -/

theorem Inside.reaches : ∀ {l : List Str} {d : List Str}, Inside d.length l → ∃ e, Reaches d l e
  | [], d, _ => ⟨d, .here d⟩
  | w :: l, d, h => by
    unfold Inside at h
    split at h
    case isTrue hw =>
      subst hw
      obtain ⟨h0, h⟩ := h
      have hne : d ≠ [] := by rintro rfl; simp at h0
      obtain ⟨d', x, rfl⟩ : ∃ d' x, d = d' ++ [x] := ⟨d.dropLast, d.getLast hne, (List.dropLast_append_getLast hne).symm⟩
      obtain ⟨e, he⟩ := Inside.reaches (l := l) (d := d') (by simpa using h)
      exact ⟨e, .up _ _ _ _ he⟩
    case isFalse hw =>
      obtain ⟨e, he⟩ := Inside.reaches (l := l) (d := d ++ [w]) (by simpa using h)
      exact ⟨e, .down _ _ _ _ hw he⟩

theorem reaches_prefix {P d l e : List Str} (h : Reaches d l e) : Reaches (P ++ d) l (P ++ e) := by
  induction h with
  | here d => exact .here _
  | up d x l e h ih => rw [← List.append_assoc]; exact .up _ _ _ _ ih
  | down d v l e hv h ih => refine .down _ _ _ _ hv ?_; rw [List.append_assoc]; exact ih

theorem reaches_plain {P : List Str} (hP : "..".toList ∉ P) {d l e : List Str} (h : Reaches (d ++ P) l e) : Reaches d (P ++ l) e := by
  induction P generalizing d with
  | nil => simpa using h
  | cons w P ih =>
    refine .down _ _ _ _ (fun hw => hP (hw ▸ List.mem_cons_self ..)) (ih (fun hm => hP (List.mem_cons_of_mem _ hm)) ?_)
    simpa using h

theorem reaches_noup {d l e : List Str} (h : Reaches d l e) (hd : "..".toList ∉ d) : "..".toList ∉ e := by
  induction h with
  | here d => exact hd
  | up d x l e h ih => exact ih (fun hm => hd (List.mem_append_left _ hm))
  | down d v l e hv h ih =>
    refine ih (fun hm => ?_)
    rcases List.mem_append.1 hm with hm | hm
    · exact hd hm
    · exact hv (List.mem_singleton.1 hm).symm

/-- From a directory below `P`, a relative reference that stays inside leads to a location below `P` that depends only on the relative locations. -/
theorem divStr_below {P : EPath} (hP : P.path.Normal) {r : List Str} (hr : "..".toList ∉ r) {s : Str} {e : List Str}
    (h1 : splitProtocol s = none) (h2 : (parse s).root = .rel) (h3 : Reaches r (parse s).names e) :
    (below P r).divStr s = some (below P e) := by
  have hs : EPath.ofStr s = some ⟨parse s, .loc⟩ := by unfold EPath.ofStr; rw [h1]
  unfold EPath.divStr
  rw [hs, Option.bind_some]
  unfold EPath.div
  have ha : (below P r).path.isAbs = true := by simp [below, PPath.isAbs, hP.1]
  rw [if_neg (by simp [ha]), if_neg (by simp [PPath.isAbs, h2])]
  have hj : resolve ((below P r).path.join (parse s)) = some ⟨.one, P.path.names ++ e⟩ := by
    rw [resolve_iff (by simp [PPath.join, h2, below, hP.1])]
    refine ⟨rfl, ?_⟩
    have : ((below P r).path.join (parse s)).names = (P.path.names ++ r) ++ (parse s).names := by simp [PPath.join, h2, below]
    rw [this]
    refine reaches_plain (fun hm => ?_) (by simpa using reaches_prefix (P := P.path.names) h3)
    rcases List.mem_append.1 hm with hm | hm
    · exact hP.2 hm
    · exact hr hm
  show (resolve ((below P r).path.join (parse s))).map _ = _
  rw [hj]
  simp [below, hP.1]

theorem parent_below {P : EPath} {r : List Str} (hr : r ≠ []) : (below P r).parent = below P r.dropLast := by
  unfold EPath.parent below
  simp only [List.dropLast_append_of_ne_nil hr]

theorem loadFile_moved_le {P Q : EPath} (hP : P.path.Normal) (hQ : Q.path.Normal) (hs : ∀ r, "..".toList ∉ r → A (below P r) = B (below Q r))
    (hc : Closed A P) : ∀ (n : Nat) {r : List Str}, "..".toList ∉ r → ∀ {L : Loader V}, loadFile A n (below P r) = some L →
      loadFile B n (below Q r) = some L
  | 0, r, _, L, e => by unfold loadFile at e; cases e
  | n + 1, r, hr, L, e => by
    unfold loadFile at e ⊢
    rw [← hs r hr]
    cases hp : A (below P r) with
    | file f =>
      rw [hp] at e
      dsimp only at e ⊢
      obtain ⟨hne, hi⟩ := hc r f hr hp
      rw [Option.map_eq_some_iff] at e ⊢
      obtain ⟨l, hl, rfl⟩ := e
      refine ⟨l, prepareSplits_sim (fun x hx i hii s hss => ?_) hl, rfl⟩
      obtain ⟨h1, h2, h3⟩ := hi x hx i hii s hss
      have hr' : "..".toList ∉ r.dropLast := fun hm => hr ((List.dropLast_sublist r).mem hm)
      obtain ⟨q, hq⟩ := Inside.reaches (d := r.dropLast) (by rw [List.length_dropLast]; exact h3)
      rw [parent_below hne, parent_below hne]
      have hq' := reaches_noup hq hr'
      exact Or.inr ⟨_, _, divStr_below hP hr' h1 h2 hq, divStr_below hQ hr' h1 h2 hq, hs q hq',
        fun L h => loadFile_moved_le hP hQ hs hc n hq' h⟩
    | dataset y => rw [hp] at e; cases e
    | nothing => rw [hp] at e; cases e

/-- **C95, moving**: if the tree of files below `P` is copied to `Q` (another directory, another remote), then every metadataset in it that uses
relative paths inside of the tree gives the same there, for all arguments of `get_datasets`. -/
theorem C95_moved {P Q : EPath} (hP : P.path.Normal) (hQ : Q.path.Normal) (hs : SameTree A P B Q) (hc : Closed A P) (n : Nat)
    {r : List Str} (hr : "..".toList ∉ r) (split : String) (mult : Int) (k : Kw V) :
    getDatasets A n (below P r) split mult k = getDatasets B n (below Q r) split mult k := by
  have hcB : Closed B Q := fun r f hr h => hc r f hr (by rw [hs r hr]; exact h)
  have e : loadFile A n (below P r) = loadFile B n (below Q r) := by
    cases h1 : loadFile A n (below P r) with
    | some L => exact (loadFile_moved_le hP hQ hs hc n hr h1).symm
    | none =>
      cases h2 : loadFile B n (below Q r) with
      | none => rfl
      | some L =>
        have := loadFile_moved_le hQ hP (fun r hr => (hs r hr).symm) hcB n hr h2
        rw [h1] at this
        exact this
  unfold getDatasets loadDataset
  rw [hs r hr, e]

/-! ## What can be loaded -/

theorem prepareItem_ok {A : Disk V} {n : Nat} {d : EPath} {i : Item V} {L : Loader V} (e : prepareItem A (loadFile A n) d i = some L) : ItemOk A d i := by
  cases i with
  | ref s o dc =>
    unfold prepareItem at e
    dsimp only at e
    cases hd : d.divStr s with
    | none => rw [hd] at e; cases e
    | some q =>
      rw [hd] at e
      dsimp only at e
      refine ⟨q, hd, ?_⟩
      cases hq : A q with
      | file f =>
        rw [hq] at e
        dsimp only at e
        split at e
        case isTrue hc => exact Or.inr ⟨⟨f, rfl⟩, hc⟩
        case isFalse => cases e
      | dataset y => exact Or.inl ⟨y, rfl⟩
      | nothing => rw [hq] at e; cases e
  | join o dc cols =>
    unfold prepareItem at e
    dsimp only at e
    split at e
    case isFalse => cases e
    case isTrue hc =>
      refine ⟨hc, ?_⟩
      rw [Option.map_eq_some_iff] at e
      obtain ⟨x, hx, -⟩ := e
      clear hc L
      induction cols generalizing x with
      | nil => intro c hc; cases hc
      | cons c cols ih =>
        simp only [List.mapM_cons, Option.bind_eq_bind, Option.bind_eq_some_iff, Option.pure_def, Option.some.injEq] at hx
        obtain ⟨b, hb, bs, hbs, rfl⟩ := hx
        intro c' hc'
        rcases List.mem_cons.1 hc' with rfl | hc'
        · unfold prepareCol at hb
          cases hd : d.divStr c'.1 with
          | none => rw [hd] at hb; cases hb
          | some q =>
            rw [hd] at hb
            dsimp only at hb
            cases hq : A q with
            | dataset y => exact ⟨q, y, rfl, hq⟩
            | file f => rw [hq] at hb; cases hb
            | nothing => rw [hq] at hb; cases hb
        · exact ih bs hbs c' hc'

theorem prepareBlend_item {A : Disk V} {n : Nat} {d : EPath} : ∀ {b : List (ℚ × Item V)} {L : Blend V}, prepareBlend A (loadFile A n) d b = some L →
    ∀ x ∈ b, ∃ L', prepareItem A (loadFile A n) d x.2 = some L'
  | [], L, e, x, hx => by cases hx
  | (w, i) :: b, L, e, x, hx => by
    unfold prepareBlend at e
    cases e1 : prepareItem A (loadFile A n) d i with
    | none => rw [e1] at e; cases e
    | some y =>
      cases e2 : prepareBlend A (loadFile A n) d b with
      | none => rw [e1, e2] at e; cases e
      | some z =>
        rcases List.mem_cons.1 hx with rfl | hx
        · exact ⟨y, e1⟩
        · exact prepareBlend_item e2 x hx

theorem prepareSplits_item {A : Disk V} {n : Nat} {d : EPath} : ∀ {f : File V} {L : Splits V}, prepareSplits A (loadFile A n) d f = some L →
    ∀ x ∈ f, ∀ i ∈ x.2.items, ∃ L', prepareItem A (loadFile A n) d i = some L'
  | [], L, e, x, hx => by cases hx
  | (name, .one j) :: f, L, e, x, hx => by
    unfold prepareSplits at e
    cases e1 : prepareItem A (loadFile A n) d j with
    | none => rw [e1] at e; cases e
    | some y =>
      cases e2 : prepareSplits A (loadFile A n) d f with
      | none => rw [e1, e2] at e; cases e
      | some z =>
        rcases List.mem_cons.1 hx with rfl | hx
        · intro i hi
          rw [Split.items, List.mem_singleton] at hi
          exact ⟨y, hi ▸ e1⟩
        · exact prepareSplits_item e2 x hx
  | (name, .blend b) :: f, L, e, x, hx => by
    unfold prepareSplits at e
    cases e1 : prepareBlend A (loadFile A n) d b with
    | none => rw [e1] at e; cases e
    | some y =>
      cases e2 : prepareSplits A (loadFile A n) d f with
      | none => rw [e1, e2] at e; cases e
      | some z =>
        rcases List.mem_cons.1 hx with rfl | hx
        · intro i hi
          obtain ⟨c, hc, rfl⟩ := List.mem_map.1 hi
          exact prepareBlend_item e1 c hc
        · exact prepareSplits_item e2 x hx

theorem sound_of_load {A : Disk V} : ∀ (n : Nat) {p : EPath} {L : Loader V}, loadFile A n p = some L → Sound A p
  | 0, p, L, e => by unfold loadFile at e; cases e
  | n + 1, p, L, e => by
    unfold loadFile at e
    cases hp : A p with
    | dataset y => rw [hp] at e; cases e
    | nothing => rw [hp] at e; cases e
    | file f =>
      rw [hp] at e
      dsimp only at e
      rw [Option.map_eq_some_iff] at e
      obtain ⟨l, hl, -⟩ := e
      have hi := prepareSplits_item hl
      refine .mk p f hp (fun x hx i h => ?_) (fun q hq => ?_)
      · obtain ⟨L', h'⟩ := hi x hx i h
        exact prepareItem_ok h'
      · obtain ⟨f', g, s, o, dc, h1, ⟨x, hx, h2⟩, h3, h4⟩ := hq
        rw [hp] at h1
        cases h1
        obtain ⟨L', h'⟩ := hi x hx _ h2
        unfold prepareItem at h'
        dsimp only at h'
        rw [h3] at h'
        dsimp only at h'
        rw [h4] at h'
        dsimp only at h'
        split at h'
        case isFalse => cases h'
        case isTrue =>
          rw [Option.map_eq_some_iff] at h'
          obtain ⟨y, hy, -⟩ := h'
          exact sound_of_load n hy

theorem prepareItem_le {A : Disk V} {n m : Nat} (h : n ≤ m) {d : EPath} {i : Item V} {L : Loader V} (e : prepareItem A (loadFile A n) d i = some L) :
    prepareItem A (loadFile A m) d i = some L := by
  refine prepareItem_sim (fun s _ => ?_) e
  cases hd : d.divStr s with
  | none => exact Or.inl hd
  | some q => exact Or.inr ⟨q, q, hd, hd, rfl, fun L h' => loadFile_le h h'⟩

theorem mapM_total {α β : Type} {f : α → Option β} : ∀ {l : List α}, (∀ a ∈ l, ∃ b, f a = some b) → ∃ r, l.mapM f = some r
  | [], _ => ⟨[], by simp⟩
  | a :: l, h => by
    obtain ⟨b, hb⟩ := h a (List.mem_cons_self ..)
    obtain ⟨r, hr⟩ := mapM_total fun a ha => h a (List.mem_cons_of_mem _ ha)
    exact ⟨b :: r, by simp [List.mapM_cons, hb, hr]⟩

/-- One bound for all items of a list -/
theorem bound {α : Type} {Q : Nat → α → Prop} (hQ : ∀ n m a, n ≤ m → Q n a → Q m a) : ∀ {l : List α}, (∀ a ∈ l, ∃ n, Q n a) →
    ∃ n, ∀ a ∈ l, Q n a
  | [], _ => ⟨0, fun a ha => by cases ha⟩
  | a :: l, h => by
    obtain ⟨n, hn⟩ := h a (List.mem_cons_self ..)
    obtain ⟨m, hm⟩ := bound hQ fun a ha => h a (List.mem_cons_of_mem _ ha)
    refine ⟨max n m, fun b hb => ?_⟩
    rcases List.mem_cons.1 hb with rfl | hb
    · exact hQ _ _ _ (Nat.le_max_left ..) hn
    · exact hQ _ _ _ (Nat.le_max_right ..) (hm b hb)

theorem prepareBlend_total {A : Disk V} {n : Nat} {d : EPath} : ∀ {b : List (ℚ × Item V)}, (∀ x ∈ b, ∃ L', prepareItem A (loadFile A n) d x.2 = some L') →
    ∃ L, prepareBlend A (loadFile A n) d b = some L
  | [], _ => ⟨.nil, by unfold prepareBlend; rfl⟩
  | (w, i) :: b, h => by
    obtain ⟨x, hx⟩ := h _ (List.mem_cons_self ..)
    obtain ⟨y, hy⟩ := prepareBlend_total fun x hx => h x (List.mem_cons_of_mem _ hx)
    exact ⟨.cons w x y, by unfold prepareBlend; rw [hx, hy]⟩

theorem prepareSplits_total {A : Disk V} {n : Nat} {d : EPath} : ∀ {f : File V},
    (∀ x ∈ f, ∀ i ∈ x.2.items, ∃ L', prepareItem A (loadFile A n) d i = some L') → ∃ L, prepareSplits A (loadFile A n) d f = some L
  | [], _ => ⟨.nil, by unfold prepareSplits; rfl⟩
  | (name, .one i) :: f, h => by
    obtain ⟨x, hx⟩ := h _ (List.mem_cons_self ..) i (by simp [Split.items])
    obtain ⟨y, hy⟩ := prepareSplits_total fun x hx => h x (List.mem_cons_of_mem _ hx)
    exact ⟨.cons name x y, by unfold prepareSplits; rw [hx, hy]⟩
  | (name, .blend b) :: f, h => by
    obtain ⟨x, hx⟩ := prepareBlend_total (A := A) (n := n) (d := d) (b := b) fun x hx =>
      h _ (List.mem_cons_self ..) x.2 (List.mem_map.2 ⟨x, hx, rfl⟩)
    obtain ⟨y, hy⟩ := prepareSplits_total fun x hx => h x (List.mem_cons_of_mem _ hx)
    exact ⟨.cons name (.blend x) y, by unfold prepareSplits; rw [hx, hy]⟩

theorem load_of_sound {A : Disk V} {p : EPath} (h : Sound A p) : ∃ n L, loadFile A n p = some L := by
  induction h with
  | mk p f hf ok next ih =>
    have hb : ∃ n, ∀ i ∈ f.flatMap (fun x => x.2.items), ∃ L, prepareItem A (loadFile A n) p.parent i = some L := by
      refine bound (fun n m i hnm ⟨L, h⟩ => ⟨L, prepareItem_le hnm h⟩) (fun i hi => ?_)
      obtain ⟨x, hx, hi⟩ := List.mem_flatMap.1 hi
      have hok := ok x hx i hi
      cases i with
      | ref s o dc =>
        obtain ⟨q, hq, ⟨y, hy⟩ | ⟨⟨g, hg⟩, hc⟩⟩ := hok
        · exact ⟨0, .refData o (y dc), by unfold prepareItem; dsimp only; rw [hq]; dsimp only; rw [hy]⟩
        · obtain ⟨n, L, hL⟩ := ih q ⟨f, g, s, o, dc, hf, ⟨x, hx, hi⟩, hq, hg⟩
          refine ⟨n, .ref o L, ?_⟩
          unfold prepareItem
          dsimp only
          rw [hq]
          dsimp only
          rw [hg]
          dsimp only
          rw [if_pos hc, hL]
          rfl
      | join o dc cols =>
        obtain ⟨hc, hcols⟩ := hok
        obtain ⟨r, hr⟩ := mapM_total (f := prepareCol A p.parent) (l := cols) fun c hcc => by
          obtain ⟨q, y, h1, h2⟩ := hcols c hcc
          exact ⟨_, by unfold prepareCol; rw [h1]; dsimp only; rw [h2]⟩
        exact ⟨0, .join o r, by unfold prepareItem; dsimp only; rw [if_pos hc, hr]; rfl⟩
    obtain ⟨n, hn⟩ := hb
    obtain ⟨L, hL⟩ := prepareSplits_total (A := A) (n := n) (d := p.parent) (f := f) fun x hx i hi => hn i (List.mem_flatMap.2 ⟨x, hx, hi⟩)
    refine ⟨n + 1, .splits L, ?_⟩
    unfold loadFile
    rw [hf]
    dsimp only
    rw [hL]
    rfl

/-- **C95, what can be loaded**: a metadataset file can be loaded if and only if all references of all splits of all files it leads to end at
datasets, without circles. -/
theorem C95_loads (A : Disk V) (p : EPath) : (∃ n L, loadFile A n p = some L) ↔ Sound A p :=
  ⟨fun ⟨n, _, h⟩ => sound_of_load n h, load_of_sound⟩

/-- **C95, circles**: metadatasets that refer to each other in a circle, be it through different splits, cannot be loaded. -/
theorem C95_circle {A : Disk V} (S : EPath → Prop) (hS : ∀ p, S p → ∃ q, S q ∧ Refers A p q) {p : EPath} (hp : S p) (n : Nat) :
    loadFile A n p = none := by
  cases h : loadFile A n p with
  | none => rfl
  | some L =>
    exfalso
    have := sound_of_load n h
    clear h
    induction this with
    | mk p f hf ok next ih =>
      obtain ⟨q, hq, hr⟩ := hS p hp
      exact ih q hr hq

/-! ## C96: the arguments of `get_train_dataset` and `get_val_dataset` -/

/-- **C96, datasets**: for the path of a dataset all arguments apply: the `dataset_config` file is read; its `split_part` and `subflavor` win over
the arguments, and each key of the `subflavors` given as argument wins over the file. -/
theorem C96_dataset_partial {A : Disk V} {p : EPath} {y : String → Yaml V} (hp : A p = .dataset y) (n : Nat) (split : String) (mult : Int) (k : Kw V) :
    ∃ d, getDatasets A n p split mult k = some [(⟨[d], mult⟩, 1)]
      ∧ d.id = (y (k.datasetConfig.getD "dataset.yaml")).id
      ∧ d.splitConfig = k.splitConfig.getD "split.yaml"
      ∧ some d.splitPart = firstGiven [(y (k.datasetConfig.getD "dataset.yaml")).splitPart, some split]
      ∧ d.subflavor = firstGiven [(y (k.datasetConfig.getD "dataset.yaml")).subflavor, k.subflavor.join]
      ∧ ∀ key, d.subflavors.bind (· key) = firstKey key [k.subflavors, (y (k.datasetConfig.getD "dataset.yaml")).subflavors] := by
  obtain ⟨sf, dc, sc, sfs⟩ := k
  generalize hy : y (dc.getD "dataset.yaml") = yy
  have hg : getDatasets A n p split mult ⟨sf, dc, sc, sfs⟩ =
      some [(⟨[loadData { subflavor := sf.getD none, splitConfig := sc.getD "split.yaml" } yy ⟨split, none, sfs, mult⟩ none], mult⟩, 1)] := by
    unfold getDatasets loadDataset
    rw [hp]
    dsimp only
    rw [hy]
    rfl
  refine ⟨_, hg, ?_⟩
  obtain ⟨id, sp, s1, s2⟩ := yy
  dsimp only [loadData, fromConfig, mergeOpt]
  refine ⟨rfl, rfl, ?_, ?_, fun key => ?_⟩
  · cases sp <;> rfl
  · rcases sf with _ | (_ | s) <;> cases s1 <;> rfl
  · cases s2 with
    | none =>
      cases sfs with
      | none => rfl
      | some d =>
        show d key = firstKey key [some d, none]
        unfold firstKey firstGiven
        simp
        cases d key <;> rfl
    | some e =>
      cases sfs with
      | none =>
        show (none : Option V).or (e key) = firstKey key [none, some e]
        simp only [firstKey, List.map_cons, Option.bind_none, Option.bind_some, List.map_nil, firstGiven_cons, firstGiven, Option.or_none]
      | some d =>
        show (d key).or (e key) = firstKey key [some d, some e]
        simp only [firstKey, List.map_cons, Option.bind_some, List.map_nil, firstGiven_cons, firstGiven, Option.or_none]

/-- **C96, subflavors of metadatasets**: for each dataset that is loaded, each key of the `subflavors` given as argument wins over everything in the
metadataset and the datasets. -/
theorem C96_subflavors {A : Disk V} {p : EPath} {f : File V} (hp : A p = .file f) {n : Nat} {split : String} {mult : Int} {k : Kw V}
    {rs : List (Built V × ℚ)} (h : getDatasets A n p split mult k = some rs) {L : Loader V} (hL : loadFile A n p = some L)
    (hne : L.NoEmpty) (hpos : L.Positive) {key : String} {v : V} (hv : k.subflavors.bind (· key) = some v) :
    ∀ r ∈ rs, ∀ d ∈ r.1.cols, d.subflavors.bind (· key) = some v := by
  unfold getDatasets loadDataset at h
  rw [hp] at h
  dsimp only at h
  split at h
  · cases h
  · rw [hL, Option.bind_some] at h
    have ha : ({ splitPart := split, subflavors := k.subflavors, multiplier := mult } : Args V).subflavor ≠ some "" := by simp
    obtain ⟨ls, hls, hf⟩ := C45_options hne hpos ha h
    intro r hr d hd
    obtain ⟨hlen, hget⟩ := List.forall₂_iff_get.1 hf
    obtain ⟨i, hi, rfl⟩ := List.mem_iff_getElem.1 hr
    have hcols := (hget i (by omega) hi).cols
    simp only [List.get_eq_getElem] at hcols
    obtain ⟨hlen', hget'⟩ := List.forall₂_iff_get.1 hcols
    obtain ⟨j, hj, rfl⟩ := List.mem_iff_getElem.1 hd
    have hcd := hget' j (by omega) hj
    simp only [List.get_eq_getElem] at hcd
    rw [hcd.subflavors key]
    unfold firstKey
    rw [List.cons_append, List.map_cons]
    dsimp only
    rw [hv]
    rfl

/-- **C96 does not hold for metadatasets**: `subflavor`, `dataset_config` or `split_config` given for a metadataset file is an error, whatever the
file contains. -/
theorem C96_violated {A : Disk V} {p : EPath} {f : File V} (hp : A p = .file f) (n : Nat) (split : String) (mult : Int) (k : Kw V)
    (hk : k.subflavor ≠ none ∨ k.datasetConfig ≠ none ∨ k.splitConfig ≠ none) : getDatasets A n p split mult k = none := by
  have : k.forLoader = true := by
    unfold Kw.forLoader
    rcases k with ⟨_ | a, _ | b, _ | c, d⟩ <;> simp_all
  unfold getDatasets loadDataset
  rw [hp]
  dsimp only
  rw [if_pos this]
  rfl

/-! ## An example -/

/-- A tree: `all.yaml` refers to `sub/inner.yaml`, which refers to the dataset `a` next to `all.yaml` by `../a`. -/
def exTree : List Str → Node Nat := fun r =>
  if r = ["all.yaml".toList] then
    .file [("train", .blend [(1, .ref "a".toList {} "dataset.yaml"), (3, .ref "sub/inner.yaml".toList { multiplier := 2 } "dataset.yaml")])]
  else if r = ["sub".toList, "inner.yaml".toList] then
    .file [("train", .one (.ref "../a".toList { splitPart := some "test" } "dataset.yaml")), ("val", .one (.ref "./../b".toList {} "dataset.yaml"))]
  else if r = ["a".toList] then .dataset fun _ => ⟨0, none, none, none⟩
  else if r = ["b".toList] then .dataset fun _ => ⟨1, none, none, none⟩
  else .nothing

/-- The tree at `/data/x`, and its copy on a remote -/
def exP : EPath := ⟨⟨.one, ["data".toList, "x".toList]⟩, .loc⟩
def exQ : EPath := ⟨⟨.one, ["s3".toList, "bucket".toList]⟩, .rclone "s3".toList⟩

/-- The disk with the tree at `P` -/
def exAt (P : EPath) : Disk Nat := fun p =>
  if p.fs = P.fs ∧ p.path.root = P.path.root ∧ P.path.names <+: p.path.names then exTree (p.path.names.drop P.path.names.length) else .nothing

theorem exAt_below (P : EPath) (r : List Str) : exAt P (below P r) = exTree r := by
  unfold exAt below
  rw [if_pos ⟨rfl, rfl, List.prefix_append ..⟩]
  simp

example : SameTree (exAt exP) exP (exAt exQ) exQ := fun r _ => by rw [exAt_below, exAt_below]

theorem exClosed : Closed (exAt exP) exP := by
  intro r f _ h
  rw [exAt_below] at h
  unfold exTree at h
  split at h
  · rename_i hr
    subst hr
    cases h
    refine ⟨by simp, fun x hx i hi s hs => ?_⟩
    rw [List.mem_singleton] at hx
    subst hx
    simp only [Split.items, List.map_cons, List.map_nil, List.mem_cons, List.not_mem_nil, or_false] at hi
    rcases hi with rfl | rfl <;> rw [Item.paths, List.mem_singleton] at hs <;> subst hs
    · exact ⟨by decide, by decide, by decide⟩
    · exact ⟨by decide, by decide, by decide⟩
  · split at h
    · rename_i hr
      subst hr
      cases h
      refine ⟨by simp, fun x hx i hi s hs => ?_⟩
      simp only [List.mem_cons, List.not_mem_nil, or_false] at hx
      rcases hx with rfl | rfl <;> rw [Split.items, List.mem_singleton] at hi <;> subst hi <;>
        rw [Item.paths, List.mem_singleton] at hs <;> subst hs
      · exact ⟨by decide, by decide, by decide⟩
      · exact ⟨by decide, by decide, by decide⟩
    · split at h
      · cases h
      · split at h <;> cases h

example : ((getDatasets (exAt exQ) 5 (below exQ ["all.yaml".toList]) "train" 1 {}).map fun rs => rs.map fun r =>
    (r.1.cols.map (fun d => (d.id, d.splitPart)), r.1.shuffle, r.2)) =
    some [([(0, "train")], 1, 1 / 4), ([(0, "test")], 2, 3 / 4)] := by decide +kernel

/-- Two files referring to each other in different splits -/
def exCircle : Disk Nat := fun p =>
  if p = ⟨⟨.one, ["m".toList]⟩, .loc⟩ then .file [("train", .one (.ref "n".toList {} "dataset.yaml")), ("val", .one (.ref "a".toList {} "dataset.yaml"))]
  else if p = ⟨⟨.one, ["n".toList]⟩, .loc⟩ then
    .file [("train", .one (.ref "a".toList {} "dataset.yaml")), ("val", .one (.ref "m".toList {} "dataset.yaml"))]
  else if p = ⟨⟨.one, ["a".toList]⟩, .loc⟩ then .dataset fun _ => ⟨0, none, none, none⟩
  else .nothing

example (n : Nat) : loadFile exCircle n ⟨⟨.one, ["m".toList]⟩, .loc⟩ = none := by
  refine C95_circle (fun p => p = ⟨⟨.one, ["m".toList]⟩, .loc⟩ ∨ p = ⟨⟨.one, ["n".toList]⟩, .loc⟩) ?_ (Or.inl rfl) n
  rintro p (rfl | rfl)
  · exact ⟨_, Or.inr rfl, _, _, "n".toList, {}, "dataset.yaml", if_pos rfl, ⟨_, List.mem_cons_self .., by simp [Split.items]⟩,
      by decide, (if_neg (by decide)).trans (if_pos rfl)⟩
  · exact ⟨_, Or.inl rfl, _, _, "m".toList, {}, "dataset.yaml", (if_neg (by decide)).trans (if_pos rfl),
      ⟨_, List.mem_cons_of_mem _ (List.mem_cons_self ..), by simp [Split.items]⟩, by decide, if_pos rfl⟩

end Verif.Meta
