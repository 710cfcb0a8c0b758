import Verif.Pipeline.Restore
import Mathlib.Data.List.Perm.Subperm

/-! # The assembled validation dataset: each sample exactly once per pass -/

namespace Verif.Pipeline

open Verif.Stream Verif.Wds

variable {B C K ρ σ κ : Type}

/-! ### Vocabulary -/

mutual
/-- The raw samples (shard, number) named in a restore key, in order. -/
def leaves : List Key → List (String × Nat)
  | .str a :: .str s :: .num i :: rest => if a = "Webdataset" then (s, i) :: leaves rest else leaves (.str s :: .num i :: rest)
  | k :: rest => leaf k ++ leaves rest
  | [] => []
/-- For one component. -/
def leaf : Key → List (String × Nat)
  | .tup l => leaves l
  | _ => []
end

/-- The raw samples that delivered samples (batches) are made of, according to their restore keys. -/
def leavesOf (xs : List (Smp C)) : List (String × Nat) := xs.flatMap fun a => leaves a.key

/-- The raw samples of a dataset with one column. -/
def Disk.samples (d : Disk B C) : List (String × Nat) := (Sharder.samplesOf d.shards).flatten

/-- `D` delivers, pass after pass, the samples `out 0`, `out 1`, ... -/
def Passes (D : Dataset σ (Smp C) κ) (out : Nat → List (Smp C)) : Prop :=
  ∃ st : Nat → σ, st 0 = D.init ∧ ∀ k, D.Pass (st k) (out k) (st (k + 1))

/-! ### Proofs -/

/-- Passes from the states `S` satisfy `P` and end in `S`. -/
structure Cyclic (D : Dataset σ (Smp C) κ) (P : List (Smp C) → Prop) (S : σ → Prop) : Prop where
  init : S D.init
  reset : ∀ s, S (D.reset s)
  pass : ∀ s, S s → ∃ xs s', D.Pass s xs s' ∧ S s' ∧ P xs

theorem Cyclic.passes {D : Dataset σ (Smp C) κ} {P : List (Smp C) → Prop} {S : σ → Prop} (h : Cyclic D P S) :
    ∃ out, Passes D out ∧ ∀ k, P (out k) := by
  choose f g h1 h2 h3 using h.pass
  let st : Nat → { s // S s } := Nat.rec ⟨D.init, h.init⟩ fun _ s => ⟨g s.1 s.2, h2 s.1 s.2⟩
  exact ⟨fun k => f (st k).1 (st k).2, ⟨fun k => (st k).1, rfl, fun k => h1 _ _⟩, fun k => h3 _ _⟩

/-- Nothing is delivered twice, and if `exact` nothing is lost. -/
def Cov (exact : Prop) {α : Type} (l L : List α) : Prop := l.Sublist L ∧ (exact → l = L)

theorem Cov.trans {exact : Prop} {α : Type} {l l' L : List α} (h : Cov exact l l') (h' : Cov exact l' L) : Cov exact l L :=
  ⟨h.1.trans h'.1, fun e => (h.2 e).trans (h'.2 e)⟩

/-- The same, in any order. -/
def PCov (exact : Prop) {α : Type} (l L : List α) : Prop := l.Subperm L ∧ (exact → l.Perm L)

theorem Cov.pcov {exact : Prop} {α : Type} {l L : List α} (h : Cov exact l L) : PCov exact l L :=
  ⟨h.1.subperm, fun e => (h.2 e) ▸ List.Perm.refl _⟩

theorem PCov.trans {exact : Prop} {α : Type} {l l' L : List α} (h : PCov exact l l') (h' : PCov exact l' L) : PCov exact l L :=
  ⟨h.1.trans h'.1, fun e => (h.2 e).trans (h'.2 e)⟩

/-- A claim about the raw samples used that stays true when fewer are used (in the same order), unless `exact`. -/
def Closed (exact : Prop) (Q : List (String × Nat) → Prop) : Prop := ∀ l l', Cov exact l l' → Q l' → Q l

theorem closed_cov {exact : Prop} {L : List (String × Nat)} : Closed exact fun l => Cov exact l L := fun _ _ h h' => h.trans h'

theorem closed_pcov {exact : Prop} {L : List (String × Nat)} : Closed exact fun l => PCov exact l L := fun _ _ h h' => h.pcov.trans h'

theorem loader_pass {R : WRng ρ} {c : Cfg C} {restore : List Key → Option (Smp C)} (hv : Valid c) (hm : c.mode ≠ .replace) (hl : c.loop = false) {x : LdX C ρ}
    (hi : Inv c x) (hr : AtRest c x) : ∃ xs x', (loaderD R c restore).Pass x xs x' := by
  generalize hn : (todo c x).length = n
  induction n generalizing x with
  | zero =>
    obtain ⟨o, h1, h2⟩ := rest_progress (R := R) hv hm hi hr (by rw [hl]; intro h; cases h)
    cases o with
    | err => exact absurd rfl h2
    | fin x' => exact ⟨[], x', .fin h1 .nil⟩
    | item a x' =>
      obtain ⟨_, _, h3⟩ := todo_item hv hm hl hi h1
      have := h3.1.length_eq
      simp [hn] at this
  | succ n ih =>
    obtain ⟨o, h1, h2⟩ := rest_progress (R := R) hv hm hi hr (by rw [hl]; intro h; cases h)
    cases o with
    | err => exact absurd rfl h2
    | fin x' => exact ⟨[], x', .fin h1 .nil⟩
    | item a x' =>
      obtain ⟨h4, h5, h3⟩ := todo_item hv hm hl hi h1
      have := h3.1.length_eq
      simp [hn] at this
      obtain ⟨xs, y, h6⟩ := ih h4 h5 this
      exact ⟨a :: xs, y, .item h1 h6⟩

theorem loader_cyclic {R : WRng ρ} {c : Cfg C} {restore : List Key → Option (Smp C)} (hv : Valid c) (hm : c.mode = .none) (hl : c.loop = false) :
    Cyclic (loaderD R c restore) (fun xs => xs = c.samples) (fun x => Inv c x ∧ AtRest c x ∧ AtStart x) where
  init := New.atStart (R := R) (restore := restore) (.inl rfl)
  reset s := by
    have hn : ∀ b ∈ (ldInit R c).active, b = none := fun b hb => List.eq_of_mem_replicate hb
    have hM : Mem c ((loaderD R c restore).reset s) :=
      ⟨by simp [loaderD, ldInit], fun b hb s p e => by rw [hn b hb] at e; cases e⟩
    exact ⟨⟨hM, by simp [loaderD, ldInit], by simp [loaderD, ldInit]⟩, ⟨hM, .inl rfl⟩, hn, rfl⟩
  pass s hs := by
    obtain ⟨hi, hr, h0⟩ := hs
    have hm' : c.mode ≠ .replace := by rw [hm]; intro h; cases h
    obtain ⟨xs, s', h⟩ := loader_pass (R := R) (restore := restore) hv hm' hl hi hr
    obtain ⟨h1, h2, h3, h4⟩ := todo_pass hv hm' hl hi hr h
    refine ⟨xs, s', h, ⟨h1, h2, h3⟩, ?_⟩
    rw [h4.2 hm, todo_start h0]
    unfold Cfg.full Cfg.copies
    rw [hm]
    simp

/-- A stage whose own state between passes is one of `x 0, x 1, ...`. -/
theorem Cyclic.lift {X KX ι : Type} {C' : Type} {D : Dataset σ (Smp C) κ} {W : Wrapper Unit (Smp C) (Smp C') X KX} {P : List (Smp C) → Prop} {Q : List (Smp C') → Prop}
    {S : σ → Prop} (x : ι → X) (h : Cyclic D P S) (hi : ∃ n, W.init = x n) (hr : ∀ y, ∃ n, W.reset y = x n)
    (hp : ∀ s xs s' n, D.Pass s xs s' → P xs → ∃ ys m, (wrap D W).Pass (s, x n) ys (s', x m) ∧ Q ys) :
    Cyclic (wrap D W) Q (fun q => S q.1 ∧ ∃ n, q.2 = x n) where
  init := ⟨h.init, hi⟩
  reset q := ⟨h.reset q.1, hr q.2⟩
  pass q hq := by
    obtain ⟨s, y⟩ := q
    obtain ⟨h1, n, rfl⟩ := hq
    obtain ⟨xs, s', h2, h3, h4⟩ := h.pass s h1
    obtain ⟨ys, m, h5, h6⟩ := hp s xs s' n h2 h4
    exact ⟨ys, _, h5, ⟨h3, m, rfl⟩, h6⟩

theorem leaves_map (n : Nat) (k : List Key) : leaves (.str "MapDataset" :: .num n :: k) = leaves k := by
  cases k with
  | nil => simp [leaves, leaf]
  | cons a k => simp [leaves, leaf]

theorem leaves_concat (n : Nat) (k : List Key) : leaves (.str "ConcatDataset" :: .num n :: k) = leaves k := by
  cases k with
  | nil => simp [leaves, leaf]
  | cons a k => simp [leaves, leaf]

theorem leaves_tups (l : List (Smp C)) : leaves (l.map fun a => Key.tup a.key) = leavesOf l := by
  induction l with
  | nil => simp [leaves, leavesOf]
  | cons a l ih => 
    rw [leavesOf, List.flatMap_cons, ← leavesOf, ← ih]
    simp [leaves, leaf]

theorem leaves_batch (n : Nat) (l : List (Smp C)) : leaves (.str "BatchDataset" :: .num n :: l.map fun a => Key.tup a.key) = leavesOf l := by
  rw [← leaves_tups]
  cases l with
  | nil => simp [leaves, leaf]
  | cons a l => simp [leaves, leaf]

theorem leaves_raw (s : String) (i : Nat) : leaves [.str "Webdataset", .str s, .num i] = [(s, i)] := by simp [leaves]

/-- The function never fails nor skips. -/
def Total {C' : Type} (f : MapFn C C') : Prop := ∀ n a, ∃ c, f n a = .ok c

/-- No exception that stops the program. -/
def NonFatal {C' : Type} (f : MapFn C C') : Prop := ∀ n a, f n a ≠ .fatal

theorem leavesOf_map {C' : Type} (f : MapFn C C') (exact : Prop) (ht : exact → Total f) (n : Nat) (xs : List (Smp C)) : Cov exact (leavesOf (mapSpec f n xs)) (leavesOf xs) := by
  induction xs generalizing n with
  | nil => exact ⟨by simp [mapSpec, leavesOf], fun _ => by simp [mapSpec, leavesOf]⟩
  | cons a xs ih =>
    have ih := ih (n + 1)
    have e : leavesOf (a :: xs) = leaves a.key ++ leavesOf xs := by simp [leavesOf]
    cases hf : f n a with
    | ok c =>
      have e2 : mapSpec f n (a :: xs) = ⟨c, .str "MapDataset" :: .num n :: a.key⟩ :: mapSpec f (n + 1) xs := by
        simp [mapSpec, List.zipIdx_cons, hf]
      rw [e2, e]
      have e3 : leavesOf ((⟨c, .str "MapDataset" :: .num n :: a.key⟩ : Smp C') :: mapSpec f (n + 1) xs) = leaves a.key ++ leavesOf (mapSpec f (n + 1) xs) := by
        simp [leavesOf, leaves_map]
      rw [e3]
      exact ⟨(List.Sublist.refl _).append ih.1, fun h => by rw [ih.2 h]⟩
    | skip | fail | fatal =>
      have e2 : mapSpec f n (a :: xs) = mapSpec f (n + 1) xs := by simp [mapSpec, List.zipIdx_cons, hf]
      rw [e2, e]
      refine ⟨ih.1.trans (List.sublist_append_right _ _), fun h => ?_⟩
      obtain ⟨c, hc⟩ := ht h n a
      rw [hf] at hc
      cases hc

theorem map_cyclic {C' : Type} {D : Dataset σ (Smp C) κ} {f : MapFn C C'} {st : Bool} {exact : Prop} {Q : List (String × Nat) → Prop} (hQ : Closed exact Q) {S : σ → Prop}
    (hf : NonFatal f) (ht : exact → Total f) (h : Cyclic D (fun xs => Q (leavesOf xs)) S) :
    ∃ S', Cyclic (mapD D f st) (fun xs => Q (leavesOf xs)) S' := by
  refine ⟨_, Cyclic.lift (fun n => ⟨n, .loop⟩) h ⟨0, rfl⟩ (fun _ => ⟨0, rfl⟩) ?_⟩
  intro s xs s' n h1 h2
  exact ⟨_, _, C13_map_pass D f st n xs s s' h1 (fun q _ => hf _ _), hQ _ _ (leavesOf_map f exact ht n xs) h2⟩

theorem log_cyclic {D : Dataset σ (Smp C) κ} {P : List (Smp C) → Prop} {S : σ → Prop} (h : Cyclic D P S) : ∃ S', Cyclic (logD D) P S' := by
  refine ⟨_, Cyclic.lift (fun n => ⟨n, .loop⟩) h ⟨0, rfl⟩ (fun _ => ⟨0, rfl⟩) ?_⟩
  intro s xs s' n h1 h2
  exact ⟨_, _, C12_log_pass D n xs s s' h1, h2⟩

theorem leavesOf_flatten (bss : List (List (Smp C))) (i : Nat) (g : Nat → List (Smp C) → C) :
    leavesOf ((bss.zipIdx i).map fun p => (⟨g p.2 p.1, .str "BatchDataset" :: .num p.2 :: p.1.map fun a => .tup a.key⟩ : Smp C)) = leavesOf bss.flatten := by
  induction bss generalizing i with
  | nil => simp [leavesOf]
  | cons b bss ih =>
    have ih := ih (i + 1)
    rw [List.zipIdx_cons, List.map_cons, List.flatten_cons]
    unfold leavesOf at ih ⊢
    rw [List.flatMap_cons, ih, List.flatMap_append]
    congr 1
    exact leaves_batch i b

theorem batch_cyclic {D : Dataset σ (Smp C) κ} {bs : Nat} (hbs : 0 < bs) {dl : Bool} {f : BatchFn C C} {exact : Prop} {Q : List (String × Nat) → Prop} (hQ : Closed exact Q)
    {S : σ → Prop} (hf : ∀ i b, ∃ c, f i b = .ok c) (hd : exact → dl = false) (h : Cyclic D (fun xs => Q (leavesOf xs)) S) :
    ∃ S', Cyclic (batchD D bs dl f) (fun xs => Q (leavesOf xs)) S' := by
  choose g hg using hf
  refine ⟨_, Cyclic.lift (fun n => ⟨n, [], [], .loop⟩) h ⟨0, rfl⟩ (fun _ => ⟨0, rfl⟩) ?_⟩
  intro s xs s' n h1 h2
  obtain ⟨bss, h3, h4⟩ := C25_batch_pass D bs hbs dl f g hg xs s s' h1 n
  refine ⟨_, _, h4, ?_⟩
  rw [leavesOf_flatten]
  obtain ⟨rest, h5, _, h6⟩ := h3.concat
  refine hQ _ _ ?_ h2
  rw [h5]
  constructor
  · unfold leavesOf
    rw [List.flatMap_append]
    exact List.sublist_append_left _ _
  · intro h
    rw [h6 (hd h), List.append_nil]

theorem limit_cyclic {D : Dataset σ (Smp C) κ} {length nw w : Nat} {exact : Prop} {Q : List (String × Nat) → Prop} (hQ : Closed exact Q) {S : σ → Prop}
    (hx : ¬ exact) (h : Cyclic D (fun xs => Q (leavesOf xs)) S) :
    ∃ S', Cyclic (limitD D length nw w true) (fun xs => Q (leavesOf xs) ∧ xs.length ≤ localShare length nw w) S' := by
  refine ⟨fun q => S q.1 ∧ q.2 = ⟨0, .start⟩, ⟨h.init, rfl⟩, fun q => ⟨h.reset q.1, rfl⟩, ?_⟩
  rintro ⟨s, y⟩ ⟨h1, rfl⟩
  obtain ⟨xs, s', h2, h3, h4⟩ := h.pass s h1
  obtain ⟨s'', h5, h6⟩ := C18_limit_pass_reset D length nw w true xs s s' h2
  refine ⟨_, _, h5, ⟨?_, rfl⟩, hQ _ _ ⟨?_, fun e => absurd e hx⟩ h4, ?_⟩
  · rcases h6 with ⟨t, rfl⟩
    exact h.reset _
  · unfold leavesOf
    conv_rhs => rw [← List.take_append_drop (localShare length nw w) xs, List.flatMap_append]
    exact List.sublist_append_left _ _
  · rw [List.length_take]
    omega

theorem concat_cyclic {D : Nat → Dataset σ (Smp C) κ} {n : Nat} {L : Nat → List (String × Nat)} {exact : Prop} {S : Nat → σ → Prop}
    (h : ∀ i, Cyclic (D i) (fun xs => Cov exact (leavesOf xs) (L i)) (S i)) :
    ∃ S', Cyclic (concatD D n) (fun xs => Cov exact (leavesOf xs) ((List.range n).flatMap L)) S' := by
  refine ⟨fun q => (∀ i, S i (q.1 i)) ∧ q.2 = .part 0, ⟨fun i => (h i).init, rfl⟩, fun q => ⟨fun i => (h i).reset _, rfl⟩, ?_⟩
  rintro ⟨s, y⟩ ⟨h1, rfl⟩
  choose xs s' g1 g2 g3 using fun i => (h i).pass (s i) (h1 i)
  have hp := C24_concat_pass D n s (fun i => if i < n then s' i else s i) xs (fun i hi => by simp only [if_pos hi]; exact g1 i)
    (fun i hi => by simp only [if_neg (Nat.not_lt.2 hi)])
  refine ⟨_, _, hp, ⟨fun i => ?_, rfl⟩, ?_⟩
  · dsimp only
    split
    · exact g2 i
    · exact h1 i
  · have e : leavesOf ((List.range n).flatMap fun i => (xs i).map (·.addKey [.str "ConcatDataset", .num i])) = (List.range n).flatMap fun i => leavesOf (xs i) := by
      unfold leavesOf
      rw [List.flatMap_assoc]
      congr 1
      funext i
      rw [List.flatMap_map]
      exact congrArg (List.flatMap · (xs i)) (funext fun a => leaves_concat i a.key)
    rw [e]
    refine ⟨?_, fun he => ?_⟩
    · generalize List.range n = l
      induction l with
      | nil => exact List.Sublist.refl _
      | cons a l ih => rw [List.flatMap_cons, List.flatMap_cons]; exact (g3 a).1.append ih
    · congr 1
      funext i
      exact (g3 i).2 he

/-! ### The parts -/

theorem mem_samples {s : Sharder.Subshards} {l : List Sharder.Subshards} (hs : s ∈ l) {j : Nat} (hj : j < s.head.count) :
    s.sampleAt j ∈ Sharder.samplesOf l :=
  List.mem_flatMap.2 ⟨s, hs, List.mem_map.2 ⟨j, List.mem_range.2 hj, rfl⟩⟩

/-- The samples of a slice, read from the tar file. -/
theorem leaves_slice {tars : String → List (Member B)} {name : String} {a n : Nat} (h : a + n ≤ (groups (entries (tars name))).length) :
    leavesOf (mkSlice tars name a n).samples = (List.range n).map fun j => (name, a + j) := by
  have hl : (sliceGroups (tars name) a n).length = n := by
    unfold sliceGroups
    rw [List.length_take, List.length_drop]
    omega
  have key : ∀ (gs : List (List (Entry B))) (a : Nat), leavesOf (Wds.samplesOf name a gs) = (List.range gs.length).map fun j => (name, a + j) := by
    intro gs
    induction gs with
    | nil => intro a; simp [Wds.samplesOf, leavesOf]
    | cons g gs ih =>
      intro a
      have e : Wds.samplesOf name a (g :: gs) = sampleOf name a g :: Wds.samplesOf name (a + 1) gs := by
        simp [Wds.samplesOf, List.zipIdx_cons]
      have ih := ih (a + 1)
      unfold leavesOf at ih ⊢
      rw [e, List.flatMap_cons, ih, List.length_cons, List.range_succ_eq_map, List.map_cons, List.map_map]
      have e2 : leaves (sampleOf name a g).key = [(name, a)] := leaves_raw name a
      rw [e2]
      simp only [List.singleton_append, Nat.add_zero, List.cons.injEq, true_and]
      apply List.map_congr_left
      intro j _
      simp only [Function.comp_apply, Prod.mk.injEq, true_and]
      omega
  rw [mkSlice, key, hl]

theorem leaves_slices {d : Disk B C} (hd : d.Ok) (hc : d.Counted) {p : List Sharder.Subshards}
    (hp : (Sharder.samplesOf p).Sublist (Sharder.samplesOf d.shards)) :
    leavesOf ((p.map fun s => mkSlice d.tars s.head.name s.head.offset s.head.count).flatMap (·.samples)) = (Sharder.samplesOf p).flatten := by
  have hs : ∀ s ∈ p, leavesOf (mkSlice d.tars s.head.name s.head.offset s.head.count).samples = s.samples.flatten := by
    intro s hs
    have key : ∀ j < s.head.count, s.tail = [] ∧ s.head.offset + j < (groups (entries (d.tars s.head.name))).length := by
      intro j hj
      have h1 := hp.subset (mem_samples hs hj)
      obtain ⟨t, ht, h2⟩ := List.mem_flatMap.1 h1
      obtain ⟨j', hj', h3⟩ := List.mem_map.1 h2
      rw [List.mem_range] at hj'
      have h4 := hd.column t ht
      have h5 := hd.whole t ht t.head (by simp [Sharder.Subshards.cols])
      simp only [Sharder.Subshards.sampleAt, Sharder.Subshards.cols, h4, List.map_cons, List.map_nil, List.cons.injEq, Prod.mk.injEq] at h3
      obtain ⟨⟨h6, h7⟩, h8⟩ := h3
      refine ⟨List.map_eq_nil_iff.1 h8.symm, ?_⟩
      rw [← h6, hc t ht]
      omega
    cases hn : s.head.count with
    | zero => simp [Sharder.Subshards.samples, hn, mkSlice, sliceGroups, Wds.samplesOf, leavesOf]
    | succ n =>
      have h1 := key n (by omega)
      rw [leaves_slice (by omega)]
      simp only [Sharder.Subshards.samples, hn]
      generalize n + 1 = m
      induction List.range m with
      | nil => rfl
      | cons a l ih =>
        rw [List.map_cons, List.map_cons, List.flatten_cons, ← ih]
        simp [Sharder.Subshards.sampleAt, Sharder.Subshards.cols, h1.1]
  clear hp
  induction p with
  | nil => rfl
  | cons s p ih =>
    have ih := ih fun t ht => hs t (by simp [ht])
    rw [Sharder.samplesOf_cons, List.flatten_append, ← ih, ← hs s (by simp), List.map_cons, List.flatMap_cons]
    unfold leavesOf
    rw [List.flatMap_append]

/-! ### The stages -/

theorem Cyclic.mono {D : Dataset σ (Smp C) κ} {P Q : List (Smp C) → Prop} {S : σ → Prop} (h : Cyclic D P S) (hq : ∀ xs, P xs → Q xs) : Cyclic D Q S where
  init := h.init
  reset := h.reset
  pass s hs := by
    obtain ⟨xs, s', h1, h2, h3⟩ := h.pass s hs
    exact ⟨xs, s', h1, h2, hq _ h3⟩

/-- Each pass delivers samples made of raw samples with the property `Q`. -/
def Uses (D : Dataset σ (Smp C) κ) (Q : List (String × Nat) → Prop) : Prop := ∃ S, Cyclic D (fun xs => Q (leavesOf xs)) S

/-- Each pass delivers samples (in order, each at most once) made of `L`. -/
abbrev Covers (exact : Prop) (D : Dataset σ (Smp C) κ) (L : List (String × Nat)) : Prop := Uses D fun l => Cov exact l L

theorem Uses.mono {D : Dataset σ (Smp C) κ} {Q Q' : List (String × Nat) → Prop} (h : Uses D Q) (hq : ∀ l, Q l → Q' l) : Uses D Q' := by
  obtain ⟨S, h⟩ := h
  exact ⟨S, h.mono fun _ => hq _⟩

theorem onlyIf_uses {st : Bool} {A : AnyDs C} {Q : List (String × Nat) → Prop} (h : Uses A.D Q) : Uses (onlyIf st A).D Q := by
  obtain ⟨S, h⟩ := h
  refine ⟨S, h.init, h.reset, fun s hs => ?_⟩
  obtain ⟨xs, s', h1, h2⟩ := h.pass s hs
  exact ⟨xs, s', Dataset.withRestore_run.2 h1, h2⟩

/-- What worker `i` reads of a dataset -/
def Disk.reads (d : Disk B C) (w : Sharder.WorkerConfig) (i : Nat) : List (String × Nat) :=
  (Sharder.reads (Sharder.shardWorkers d.shards w d.maxSamples 0) i).flatten

/-- A validation dataset: well-formed, the index agrees with the files, samples are loaded without fatal errors. -/
structure Disk.Val (d : Disk B C) : Prop where
  ok : d.Ok
  counted : d.Counted
  parallel : d.parallel = none
  load : NonFatal d.load

theorem buildPart_val (R : WRng ρ) {d : Disk B C} (hd : d.Val) {w : Sharder.WorkerConfig} (hr : w.rank < w.worldSize) {i : Nat}
    (hi : i < w.workers) {exact : Prop} (hx : exact → Total d.load) :
    ∃ D, buildPart R d false w 0 i = .ok D ∧ Covers exact D (d.reads w i) := by
  obtain ⟨p, h1, h2, h3, h4, _, h6⟩ := slicesFor_ok hd.ok hr 0 hi
  refine ⟨_, by unfold buildPart; rw [h1], ?_⟩
  have hv := loaderCfg_valid hd.ok false (.inr hd.parallel) h2
  refine map_cyclic (exact := exact) closed_cov hd.load hx (Cyclic.mono (loader_cyclic hv rfl rfl) ?_)
  rintro xs rfl
  have e : leavesOf (loaderCfg d false (p.map fun s => mkSlice d.tars s.head.name s.head.offset s.head.count)).samples = d.reads w i := by
    unfold Disk.reads
    rw [show ((0 : Nat) : Int) = 0 from rfl] at h6
    rw [h6, ← leaves_slices hd.ok hd.counted h4]
    unfold Cfg.samples loaderCfg
    rw [List.flatMap_def]
  rw [e]
  exact ⟨List.Sublist.refl _, fun _ => rfl⟩

theorem buildParts_val (R : Rngs ρ) {w : Sharder.WorkerConfig} (hr : w.rank < w.worldSize) {i : Nat} (hi : i < w.workers) {exact : Prop}
    (l : List (Disk B C)) (h : ∀ d ∈ l, d.Val) (hx : exact → ∀ d ∈ l, Total d.load) (j : Nat) :
    ∃ Ds, buildParts R false w i j (l.map fun d => (d, 0)) = .ok Ds ∧ Ds.length = l.length ∧
      ∀ (k : Nat) D (d : Disk B C), Ds[k]? = some D → l[k]? = some d → Covers exact D (d.reads w i) := by
  induction l generalizing j with
  | nil => exact ⟨[], rfl, rfl, by simp⟩
  | cons d l ih =>
    obtain ⟨D, g1, g2⟩ := buildPart_val (R.reader j) (h d (by simp)) hr hi fun e => hx e d (by simp)
    obtain ⟨Ds, k1, k2, k3⟩ := ih (fun q hq => h q (by simp [hq])) (fun e q hq => hx e q (by simp [hq])) (j + 1)
    refine ⟨D :: Ds, by simp only [List.map_cons, buildParts, g1, k1], by simp [k2], ?_⟩
    intro k E e hE he
    cases k with
    | zero => cases hE; cases he; exact g2
    | succ k => exact k3 k E e (by simpa using hE) (by simpa using he)

theorem valSource_covers (R : Rngs ρ) {ds : List (Disk B C)} (hne : ds ≠ []) {w : Sharder.WorkerConfig} (hr : w.rank < w.worldSize) {i : Nat}
    (hi : i < w.workers) (h : ∀ d ∈ ds, d.Val) {exact : Prop} (hx : exact → ∀ d ∈ ds, Total d.load) :
    ∃ A, valSource R ds w i = .ok A ∧ Covers exact A.D (ds.flatMap fun d => d.reads w i) := by
  match ds, hne, h, hx with
  | [d], _, h, hx =>
    obtain ⟨D, g1, g2⟩ := buildPart_val (R.reader 0) (h d (by simp)) hr hi fun e => hx e d (by simp)
    exact ⟨⟨_, _, D⟩, by simp only [valSource, g1], by simpa using g2⟩
  | d :: d' :: l, _, h, hx =>
    obtain ⟨Ds, g1, g2, g3⟩ := buildParts_val R hr hi (d :: d' :: l) h hx 0
    cases Ds with
    | nil => simp at g2
    | cons D Ds =>
      refine ⟨⟨_, _, concatD (nth D Ds) (Ds.length + 1)⟩, by simp only [valSource, g1], ?_⟩
      have hc : ∀ k, ∃ S, Cyclic (nth D Ds k) (fun xs => Cov exact (leavesOf xs) (((d :: d' :: l).getD k d).reads w i)) S := by
        intro k
        unfold nth
        by_cases hk : k < (D :: Ds).length
        · rw [List.getD_eq_getElem?_getD, List.getD_eq_getElem?_getD]
          rw [List.getElem?_eq_getElem hk, List.getElem?_eq_getElem (g2 ▸ hk)]
          exact g3 k _ _ (List.getElem?_eq_getElem hk) (List.getElem?_eq_getElem (g2 ▸ hk))
        · rw [List.getD_eq_getElem?_getD, List.getD_eq_getElem?_getD]
          rw [List.getElem?_eq_none (by omega), List.getElem?_eq_none (by omega)]
          exact g3 0 _ _ rfl rfl
      choose S hS using hc
      have := concat_cyclic (n := Ds.length + 1) hS
      have e : (List.range (Ds.length + 1)).flatMap (fun k => ((d :: d' :: l).getD k d).reads w i) = (d :: d' :: l).flatMap fun d => d.reads w i := by
        have : Ds.length + 1 = (d :: d' :: l).length := by simpa using g2
        rw [this]
        generalize d :: d' :: l = l
        have : l = (List.range l.length).map fun k => l.getD k d := by
          apply List.ext_getElem
          · simp
          · intro k h1 h2
            simp [List.getD_eq_getElem?_getD, List.getElem?_eq_getElem h1]
        conv_rhs => rw [this, List.flatMap_map]
      rw [e] at this
      exact this

/-- The function is no generator function and raises no fatal exceptions. -/
def UserMap.Safe (u : UserMap C) : Prop := ∃ f st, u = .plain f st ∧ NonFatal f

/-- It never fails or skips. -/
def UserMap.Total (u : UserMap C) : Prop := ∃ f st, u = .plain f st ∧ Pipeline.Total f

theorem mapStage_uses {u : Option (UserMap C)} (hu : ∀ f, u = some f → f.Safe) {exact : Prop} (hx : exact → ∀ f, u = some f → f.Total) {A : AnyDs C}
    {Q : List (String × Nat) → Prop} (hQ : Closed exact Q) (h : Uses A.D Q) : Uses (mapStage u A).D Q := by
  cases u with
  | none => exact h
  | some u =>
    obtain ⟨f, st, rfl, hf⟩ := hu u rfl
    obtain ⟨S, h⟩ := h
    refine map_cyclic (D := A.D) (st := st) hQ hf (fun e => ?_) h
    obtain ⟨f', st', h1, h2⟩ := hx e _ rfl
    cases h1
    exact h2

/-- `select_samples_to_pack` (`q.1`), called with `n` samples or the rest of the pass, arranges some of them in packs, each at most once, at least one if there are `n`, and
`pack_selected_samples` (`q.2.2`) is no generator function (`q.2.1`) and raises nothing fatal. -/
structure PackSafe (n : Nat) (q : PreFn C × Bool × FinalFn C C) : Prop where
  select : ∀ i l, ∃ packs, q.1 i l = some packs ∧ packs.flatten.Subperm l ∧ (l.length = n → packs ≠ [])
  plain : q.2.1 = false
  pack : ∃ f : BatchFn C C, q.2.2 = plainFinal f ∧ ∀ i l, f i l ≠ .fatal

/-- All samples are arranged, and packing does not fail or skip. -/
structure PackTotal (q : PreFn C × Bool × FinalFn C C) : Prop where
  select : ∀ i l packs, q.1 i l = some packs → packs.flatten.Perm l
  pack : ∀ i l, ∃ c, q.2.2 i l = ([c], .done)

/-- For validation: functions are no generators, raise nothing fatal; `batch` does not fail; the packing, with buffers of size `packing`, is well-behaved. -/
structure Encoder.Safe (E : Encoder C K) (packing : Option Nat) : Prop where
  cook : ∀ f, E.cook = some f → f.Safe
  encode : ∀ f, E.encode = some f → f.Safe
  encodeBatch : ∀ f, E.encodeBatch = some f → f.Safe
  pack : ∀ n, packing = some n → 0 < n ∧ ∃ q, E.pack = some q ∧ PackSafe n q
  group : ∀ key, E.group = some key → ∀ i a, key i a ≠ .fatal
  batch : ∀ i b, ∃ c, E.batch i b = .ok c

/-- Nothing fails, nothing is skipped. -/
structure Encoder.Total (E : Encoder C K) : Prop where
  cook : ∀ f, E.cook = some f → f.Total
  encode : ∀ f, E.encode = some f → f.Total
  encodeBatch : ∀ f, E.encodeBatch = some f → f.Total
  pack : ∀ q, E.pack = some q → PackTotal q
  /-- `batch_group_criterion` gives each sample a group, and no batch size (which is given for the dataset) -/
  group : ∀ key, E.group = some key → ∀ i a, ∃ k, key i a = .group k none

theorem limitStage_uses {limit : Option Nat} {nw i : Nat} {exact : Prop} (hx : exact → limit = none ∨ limit = some 0) {A : AnyDs C}
    {Q : List (String × Nat) → Prop} (hQ : Closed exact Q) (h : Uses A.D Q) : Uses (limitStage limit nw i A).D Q := by
  cases limit with
  | none => exact h
  | some n =>
    by_cases hn : 0 < n
    · have e : limitStage (some n) nw i A = ⟨_, _, limitD A.D n nw i true⟩ := if_pos hn
      rw [e]
      obtain ⟨S, h⟩ := h
      obtain ⟨S', h'⟩ := limit_cyclic (length := n) (nw := nw) (w := i) hQ (fun e => by rcases hx e with h | h <;> cases h; omega) h
      exact ⟨S', h'.mono fun xs h => h.1⟩
    · have e : limitStage (some n) nw i A = A := if_neg hn
      rw [e]
      exact h

/-! ### Packing -/

theorem leaves_tuples (nm : String) (n : Nat) (l : List (Smp C)) : leaves (.str nm :: .num n :: l.map fun a => Key.tup a.key) = leavesOf l := by
  rw [← leaves_tups]
  cases l with
  | nil => simp [leaves, leaf]
  | cons a l => simp [leaves, leaf]

theorem leaves_pack (n j : Nat) (l : List (Smp C)) : leaves (packKey false n j (l.map (·.key))) = leavesOf l := by
  rw [← leaves_tuples "PackingDataset" n l]
  simp [packKey, Function.comp_def]

theorem leavesOf_cons (a : Smp C) (l : List (Smp C)) : leavesOf (a :: l) = leaves a.key ++ leavesOf l := by simp [leavesOf]

theorem leavesOf_append (l l' : List (Smp C)) : leavesOf (l ++ l') = leavesOf l ++ leavesOf l' := by simp [leavesOf]

theorem leavesOf_packs (f : BatchFn C C) (exact : Prop) (ht : exact → ∀ i l, ∃ c, plainFinal f i l = ([c], .done)) (j : Nat) (ps : List (List (Smp C))) :
    Cov exact (leavesOf (outP false (plainFinal f) j ps)) (leavesOf ps.flatten) := by
  induction ps generalizing j with
  | nil => exact ⟨by simp [outP, leavesOf], fun _ => by simp [outP, leavesOf]⟩
  | cons p ps ih =>
    have ih := ih (j + 1)
    have e : outP false (plainFinal f) j (p :: ps) = outP false (plainFinal f) j [p] ++ outP false (plainFinal f) (j + 1) ps := by
      rw [show p :: ps = [p] ++ ps from rfl, outP_append]
      rfl
    rw [e, List.flatten_cons, leavesOf_append, leavesOf_append]
    have h1 : Cov exact (leavesOf (outP false (plainFinal f) j [p])) (leavesOf p) := by
      cases hf : f j p with
      | ok c =>
        have e : outP false (plainFinal f) j [p] = [⟨c, packKey false j 0 (p.map (·.key))⟩] := by simp [outP, plainFinal, hf]
        rw [e, leavesOf_cons, leaves_pack]
        simp [leavesOf, Cov]
      | skip | fatal =>
        have e : outP false (plainFinal f) j [p] = [] := by simp [outP, plainFinal, hf]
        rw [e]
        refine ⟨by simp [leavesOf], fun h => ?_⟩
        obtain ⟨c, hc⟩ := ht h j p
        simp [plainFinal, hf] at hc
    exact ⟨h1.1.append ih.1, fun h => by rw [h1.2 h, ih.2 h]⟩

theorem leavesOf_subperm {l l' : List (Smp C)} (h : l.Subperm l') : (leavesOf l).Subperm (leavesOf l') := by
  obtain ⟨m, h1, h2⟩ := h
  refine ⟨leavesOf m, (h1.flatMap_right _), ?_⟩
  have : ∀ {a b : List (Smp C)}, a.Sublist b → (leavesOf a).Sublist (leavesOf b) := by
    intro a b h
    induction h with
    | slnil => exact List.Sublist.refl _
    | cons x _ ih => rw [leavesOf_cons]; exact ih.trans (List.sublist_append_right _ _)
    | cons_cons x _ ih => rw [leavesOf_cons, leavesOf_cons]; exact (List.Sublist.refl _).append ih
  exact this h2

theorem leavesOf_perm {l l' : List (Smp C)} (h : l.Perm l') : (leavesOf l).Perm (leavesOf l') := h.flatMap_right _

theorem packsOf_subperm {p : Nat → List (Smp C) → List (List (Smp C))} (hp : ∀ i l, (p i l).flatten.Subperm l) (i : Nat) (chunks : List (List (Smp C))) :
    (packsOf p i chunks).flatten.Subperm chunks.flatten := by
  induction chunks generalizing i with
  | nil => simp [packsOf]
  | cons c cs ih =>
    have : packsOf p i (c :: cs) = p i c ++ packsOf p (i + 1) cs := by simp [packsOf]
    rw [this, List.flatten_append, List.flatten_cons]
    exact (hp i c).append (ih _)

theorem pack_cyclic {D : Dataset σ (Smp C) κ} {n : Nat} (hn : 0 < n) {q : PreFn C × Bool × FinalFn C C} (hq : PackSafe n q) {exact : Prop} (ht : exact → PackTotal q)
    {L : List (String × Nat)} {S : σ → Prop} (h : Cyclic D (fun xs => PCov exact (leavesOf xs) L) S) :
    ∃ S', Cyclic (packD D n q.1 q.2.1 q.2.2) (fun xs => PCov exact (leavesOf xs) L) S' := by
  obtain ⟨pre, gen, F⟩ := q
  obtain ⟨h1, rfl, f, rfl, hf⟩ := hq
  choose p hp1 hp2 hp3 using h1
  simp only at hp1 hp2 hp3 hf ⊢
  refine ⟨_, Cyclic.lift (fun ij : Nat × Nat => ⟨[], [], [], ij.1, ij.2, .check 0⟩) h ⟨(0, 0), rfl⟩ (fun _ => ⟨(0, 0), rfl⟩) ?_⟩
  rintro s xs s' ⟨i, j⟩ h2 h3
  have hff : ∀ i l, (plainFinal f i l).2 ≠ .fatal := by
    intro i l
    unfold plainFinal
    cases he : f i l with
    | fatal => exact absurd he (hf i l)
    | ok | skip => simp
  obtain ⟨chunks, h4, h5⟩ := C30_packing_pass D n hn pre false (plainFinal f) hff p hp1 (.of_always hp3) xs s s' h2 i j
  refine ⟨_, (i + chunks.length, j + (packsOf p i chunks).length), h5, ?_⟩
  have h6 : PCov exact (packsOf p i chunks).flatten xs := by
    refine ⟨?_, fun e => C30_exactly_once p (fun i l => (ht e).select i l _ (hp1 i l)) n xs chunks h4 i⟩
    refine (packsOf_subperm hp2 i chunks).trans ?_
    obtain ⟨⟨rest, h7, _, h8⟩, _, _⟩ := h4
    rw [h7, h8 rfl, List.append_nil]
  exact ((leavesOf_packs f exact (fun e i l => (ht e).pack i l) j _).pcov.trans ⟨leavesOf_subperm h6.1, fun e => leavesOf_perm (h6.2 e)⟩).trans h3

/-! ### Grouping -/

theorem filters_perm {α K : Type} [DecidableEq K] (key : α → Option K) (ks : List K) (hn : ks.Nodup) (l : List α) :
    (ks.flatMap fun k => l.filter fun a => key a = some k).Subperm l ∧ ((∀ a ∈ l, ∃ k ∈ ks, key a = some k) → (ks.flatMap fun k => l.filter fun a => key a = some k).Perm l) := by
  induction ks generalizing l with
  | nil =>
    refine ⟨by simp, fun h => ?_⟩
    cases l with
    | nil => simp
    | cons a l => obtain ⟨k, hk, _⟩ := h a (by simp); simp at hk
  | cons k ks ih =>
    rw [List.nodup_cons] at hn
    obtain ⟨h1, h2⟩ := ih hn.2 (l.filter fun a => ¬ key a = some k)
    have e : (ks.flatMap fun k' => (l.filter fun a => ¬ key a = some k).filter fun a => key a = some k') = ks.flatMap fun k' => l.filter fun a => key a = some k' := by
      refine List.flatMap_congr fun k' hk' => ?_
      rw [List.filter_filter]
      apply List.filter_congr
      intro a _
      by_cases hk : key a = some k'
      · have : k' ≠ k := fun e => hn.1 (e ▸ hk')
        simp [hk, this]
      · simp [hk]
    rw [e] at h1 h2
    have h3 : ((l.filter fun a => key a = some k) ++ l.filter fun a => ¬ key a = some k).Perm l := by
      have := List.filter_append_perm (fun a => decide (key a = some k)) l
      simpa using this
    rw [List.flatMap_cons]
    refine ⟨((List.Subperm.refl _).append h1).trans h3.subperm, fun h => ((List.Perm.refl _).append (h2 ?_)).trans h3⟩
    intro a ha
    rw [List.mem_filter] at ha
    obtain ⟨k', hk', hk⟩ := h a ha.1
    rw [List.mem_cons] at hk'
    rcases hk' with rfl | hk'
    · simp [hk] at ha
    · exact ⟨k', hk', hk⟩

theorem leavesOf_groups (f : BatchFn C C) (hf : ∀ i b, ∃ c, f i b = .ok c) (b : Nat) (bs : List (K × List (Smp C))) :
    leavesOf (outG f b bs) = leavesOf (bs.flatMap (·.2)) := by
  induction bs generalizing b with
  | nil => simp [outG, leavesOf]
  | cons p ps ih =>
    have ih := ih (b + 1)
    obtain ⟨c, hc⟩ := hf b p.2
    have e : outG f b (p :: ps) = ⟨c, .str "GroupBatchDataset" :: .num b :: p.2.map fun a => .tup a.key⟩ :: outG f (b + 1) ps := by
      simp [outG, List.zipIdx_cons, hc]
    rw [e, leavesOf_cons, List.flatMap_cons, leavesOf_append, ih, leaves_tuples]

theorem group_cyclic [DecidableEq K] {D : Dataset σ (Smp C) κ} {n : Nat} (hn : 0 < n) {key : GroupFn C K} (hk : ∀ i a, key i a ≠ .fatal) {f : BatchFn C C}
    (hf : ∀ i b, ∃ c, f i b = .ok c) {dl : Bool} {exact : Prop} (ht : exact → dl = false ∧ ∀ i a, ∃ k, key i a = .group k none)
    {L : List (String × Nat)} {S : σ → Prop} (h : Cyclic D (fun xs => PCov exact (leavesOf xs) L) S) :
    ∃ S', Cyclic (groupD D (some n) key f dl) (fun xs => PCov exact (leavesOf xs) L) S' := by
  classical
  refine ⟨_, Cyclic.lift (fun ij : Nat × Nat => ⟨ij.1, ij.2, [], .loop⟩) h ⟨(0, 0), rfl⟩ (fun x => ⟨(x.gidx, x.bidx), rfl⟩) ?_⟩
  rintro s xs s' ⟨g, b⟩ h2 h3
  obtain ⟨bs, h4, h5⟩ := C28_group_pass D (some n) key f dl (fun i l => by obtain ⟨c, hc⟩ := hf i l; rw [hc]; simp) hk (fun _ => n) ⟨fun _ => hn, fun _ => rfl⟩ xs s s' h2 g b
  refine ⟨_, (g + xs.length, b + bs.length), h5, ?_⟩
  rw [leavesOf_groups f hf]
  have h6 : PCov exact (bs.flatMap (·.2)) xs := by
    -- all groups
    let ks : List K := (bs.map (·.1) ++ (xs.zipIdx g).filterMap fun p => groupKey (some n) key p.2 p.1).dedup
    have hks : ks.Nodup := List.nodup_dedup _
    have e1 : (ks.flatMap fun k => bs.filter fun p => some p.1 = some k).Perm bs :=
      (filters_perm (fun p : K × List (Smp C) => some p.1) ks hks bs).2 fun p hp => ⟨p.1, by simp only [ks, List.mem_dedup, List.mem_append, List.mem_map]; exact .inl ⟨p, hp, rfl⟩, rfl⟩
    have e2 := filters_perm (fun p : Smp C × Nat => groupKey (some n) key p.2 p.1) ks hks (xs.zipIdx g)
    have e3 : (bs.flatMap (·.2)).Perm (ks.flatMap fun k => (batchesOf k bs).flatten) := by
      refine (e1.flatMap_right (·.2)).symm.trans (List.Perm.of_eq ?_)
      rw [List.flatMap_assoc]
      refine List.flatMap_congr fun k _ => ?_
      simp only [batchesOf, Option.some.injEq, List.flatMap_def]
    have e4 : ∀ k, Cov exact (batchesOf k bs).flatten (Stream.samplesOf (some n) key g k xs) := by
      intro k
      obtain ⟨⟨rest, h7, _, h8⟩, _, _⟩ := h4 k
      rw [h7]
      exact ⟨List.sublist_append_left _ _, fun e => by rw [h8 (ht e).1, List.append_nil]⟩
    have e5 : Cov exact (ks.flatMap fun k => (batchesOf k bs).flatten) (ks.flatMap fun k => Stream.samplesOf (some n) key g k xs) := by
      refine ⟨?_, fun e => List.flatMap_congr fun k _ => (e4 k).2 e⟩
      generalize ks = l
      induction l with
      | nil => exact List.Sublist.refl _
      | cons a l ih => rw [List.flatMap_cons, List.flatMap_cons]; exact (e4 a).1.append ih
    have e6 : (ks.flatMap fun k => Stream.samplesOf (some n) key g k xs) = (ks.flatMap fun k => (xs.zipIdx g).filter fun p => groupKey (some n) key p.2 p.1 = some k).map (·.1) := by
      rw [List.map_flatMap]
      rfl
    have e7 : xs = (xs.zipIdx g).map (·.1) := by simp
    have e8 : PCov exact (ks.flatMap fun k => Stream.samplesOf (some n) key g k xs) xs := by
      rw [e6]
      conv => arg 3; rw [e7]
      refine ⟨(by obtain ⟨m, g1, g2⟩ := e2.1; exact ⟨m.map (·.1), g1.map _, g2.map _⟩), fun e => (e2.2 ?_).map _⟩
      intro p hp
      obtain ⟨k, hk⟩ := (ht e).2 p.2 p.1
      have : groupKey (some n) key p.2 p.1 = some k := by simp [groupKey, groupSize, hk]
      refine ⟨k, ?_, this⟩
      simp only [ks, List.mem_dedup, List.mem_append, List.mem_filterMap]
      exact .inr ⟨p, hp, this⟩
    exact (PCov.trans ⟨e3.subperm, fun _ => e3⟩ e5.pcov).trans e8
  exact PCov.trans ⟨leavesOf_subperm h6.1, fun e => leavesOf_perm (h6.2 e)⟩ h3

/-! ### All stages -/

theorem valDs_covers [DecidableEq K] (R : Rngs ρ) (E : Encoder C K) (ds : List (Disk B C)) (o : ValOpts) (w : Sharder.WorkerConfig) (i : Nat)
    (hne : ds ≠ []) (hds : ∀ d ∈ ds, d.Val) (hr : w.rank < w.worldSize) (hi : i < w.workers) (hE : E.Safe o.packing) (hb : 0 < o.batchSize)
    {exact : Prop} (hx : exact → (∀ d ∈ ds, Total d.load) ∧ E.Total ∧ o.dropLast = false ∧ (o.limit = none ∨ o.limit = some 0)) :
    ∃ A, valDs R E ds o w i = .ok A ∧ Uses A.D (fun l => PCov exact l (ds.flatMap fun d => d.reads w i)) ∧
      (o.packing = none → E.group = none → Covers exact A.D (ds.flatMap fun d => d.reads w i)) := by
  obtain ⟨A, h1, h2⟩ := valSource_covers R hne hr hi hds (exact := exact) fun e => (hx e).1
  have h3 := mapStage_uses hE.encode (fun e => (hx e).2.1.encode) closed_cov (mapStage_uses hE.cook (fun e => (hx e).2.1.cook) closed_cov h2)
  generalize hA1 : mapStage E.encode (mapStage E.cook A) = A1 at h3
  -- packing
  have h4 : ∃ A2, packStage E o.packing A1 = .ok A2 ∧ Uses A2.D (fun l => PCov exact l (ds.flatMap fun d => d.reads w i)) ∧
      (o.packing = none → Covers exact A2.D (ds.flatMap fun d => d.reads w i)) := by
    cases hp : o.packing with
    | none => exact ⟨A1, rfl, h3.mono fun _ h => h.pcov, fun _ => h3⟩
    | some n =>
      obtain ⟨g1, ⟨pre, gen, f⟩, g2, g3⟩ := hE.pack n hp
      refine ⟨onlyIf E.packStateless ⟨_, _, packD A1.D n pre gen f⟩, by simp only [packStage, g2], ?_, fun h => by cases h⟩
      obtain ⟨S, h3⟩ := h3
      exact onlyIf_uses (A := ⟨_, _, packD A1.D n pre gen f⟩) (pack_cyclic g1 g3 (fun e => (hx e).2.1.pack _ g2) (h3.mono fun _ h => h.pcov))
  obtain ⟨A2, h4, h5, h6⟩ := h4
  -- batching or grouping
  have h7 : ∃ A3, batchStage E (some o.batchSize) o.dropLast A2 = .ok A3 ∧ Uses A3.D (fun l => PCov exact l (ds.flatMap fun d => d.reads w i)) ∧
      (o.packing = none → E.group = none → Covers exact A3.D (ds.flatMap fun d => d.reads w i)) := by
    cases hg : E.group with
    | none =>
      refine ⟨mapStage E.encodeBatch (onlyIf E.batchStateless ⟨_, _, batchD A2.D o.batchSize o.dropLast E.batch⟩), by simp only [batchStage, hg], ?_, fun hp _ => ?_⟩
      · obtain ⟨S, h5⟩ := h5
        exact mapStage_uses hE.encodeBatch (fun e => (hx e).2.1.encodeBatch) closed_pcov
          (onlyIf_uses (A := ⟨_, _, batchD A2.D o.batchSize o.dropLast E.batch⟩) <| batch_cyclic hb closed_pcov hE.batch (fun e => (hx e).2.2.1) h5)
      · obtain ⟨S, h6⟩ := h6 hp
        exact mapStage_uses hE.encodeBatch (fun e => (hx e).2.1.encodeBatch) closed_cov
          (onlyIf_uses (A := ⟨_, _, batchD A2.D o.batchSize o.dropLast E.batch⟩) <| batch_cyclic hb closed_cov hE.batch (fun e => (hx e).2.2.1) h6)
    | some key =>
      refine ⟨onlyIf false ⟨_, _, groupD A2.D (some o.batchSize) key E.batch o.dropLast⟩, by simp only [batchStage, hg], ?_, fun _ h => by cases h⟩
      obtain ⟨S, h5⟩ := h5
      exact onlyIf_uses (A := ⟨_, _, groupD A2.D (some o.batchSize) key E.batch o.dropLast⟩)
        (group_cyclic hb (hE.group key hg) hE.batch (fun e => ⟨(hx e).2.2.1, (hx e).2.1.group key hg⟩) h5)
  obtain ⟨A3, h7, h8, h9⟩ := h7
  have hlog : ∀ {Q : List (String × Nat) → Prop} {A : AnyDs C}, Uses A.D Q → Uses (logStage o.logging A).D Q := by
    intro Q A h
    cases o.logging with
    | false => exact h
    | true =>
      obtain ⟨S, h⟩ := h
      exact log_cyclic h
  refine ⟨logStage o.logging (limitStage o.limit w.numWorkers i A3), by simp only [valDs, h1, buildBatch, hA1, h4, h7], ?_, fun hp hg => ?_⟩
  · exact hlog (limitStage_uses (fun e => (hx e).2.2.2) closed_pcov h8)
  · exact hlog (limitStage_uses (fun e => (hx e).2.2.2) closed_cov (h9 hp hg))

/-! ### The theorems -/

end Verif.Pipeline
