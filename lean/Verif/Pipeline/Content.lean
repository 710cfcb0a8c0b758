import Verif.Pipeline.ValProps
import Verif.Wrap.GroupOrder
import Verif.Wrap.MapGenProps

/-! # What validation delivers -/

namespace Verif.Pipeline

open Verif.Stream Verif.Wds

variable {B C K ρ σ κ : Type}

/-! ### Specification -/

/-- The raw sample with number `p.2` of the tar file `p.1`. -/
def Disk.raw (d : Disk B C) (p : String × Nat) : Raw B := (sampleOf p.1 p.2 ((groups (entries (d.tars p.1))).getD p.2 [])).content

/-- The raw samples of worker `i`. -/
def Disk.raws (d : Disk B C) (w : Sharder.WorkerConfig) (i : Nat) : List (Raw B) := (d.reads w i).map d.raw

/-- `f` computes `h` (`none`: the sample is skipped), whatever the sample index is. -/
def Computes {C' : Type} (f : MapFn C C') (h : C → Option C') : Prop :=
  ∀ n a, match f n a with
    | .ok c => h a.content = some c
    | .fatal => False
    | _ => h a.content = none

/-- The method, if there is one, computes `h`, whatever the sample index is: it gives one sample, or none (the sample is skipped), or, if it is a generator function, several.
(Generator functions do not raise.) -/
def Does : Option (UserMap C) → (C → List C) → Prop
  | none, h => ∀ c, h c = [c]
  | some (.plain f _), h => ∀ n a, match f n a with
    | .ok c => h a.content = [c]
    | .fatal => False
    | _ => h a.content = []
  | some (.gen f _), h => ∀ n a, f n a = (h a.content, .done)

/-- `f` computes `h` (`none`: the batch is skipped), whatever the sample index is. -/
def ComputesBatch (f : BatchFn C C) (h : List C → Option C) : Prop :=
  ∀ n l, match f n l with
    | .ok c => h (l.map (·.content)) = some c
    | .fatal => False
    | .skip => h (l.map (·.content)) = none

/-- The methods of a task encoder, as functions of the contents of samples. -/
structure Fns (C K : Type) where
  cook : C → List C
  encode : C → List C
  select : List C → List (List C)
  pack : List C → List C
  group : C → Option K
  size : K → Nat
  batch : List C → Option C
  encodeBatch : C → List C

/-- The batch size of a group. -/
def Fns.sizeOf (F : Fns C K) : Option Nat → K → Nat
  | some n => fun _ => n
  | none => F.size

/-- `select_samples_to_pack` and `pack_selected_samples` compute `F.select` and `F.pack`; a full buffer of `n` samples gives at least one pack. -/
def Encoder.Packs (E : Encoder C K) (F : Fns C K) (n : Nat) : Prop :=
  0 < n ∧ (∀ l, l.length = n → F.select l ≠ []) ∧ ∃ pre gen f, E.pack = some (pre, gen, f) ∧
    (∀ i l, ∃ packs, pre i l = some packs ∧ packs.map (List.map (·.content)) = F.select (l.map (·.content))) ∧
    ∀ i l, (f i l).1 = F.pack (l.map (·.content)) ∧ (f i l).2 ≠ .fatal

/-- The methods of the task encoder compute the functions `F` and raise no fatal exceptions (`none`: the sample is skipped). The group criterion gives a batch size if and only if there is no
fixed one (otherwise the sample is skipped); it depends only on the group. -/
structure Encoder.Is (E : Encoder C K) (F : Fns C K) (batchSize packing : Option Nat) : Prop where
  cook : Does E.cook F.cook
  encode : Does E.encode F.encode
  pack : ∀ n, packing = some n → E.Packs F n
  group : ∀ key, E.group = some key → (∀ k, 0 < F.sizeOf batchSize k) ∧ ∀ i a, match key i a, batchSize with
    | .group k none, some _ => F.group a.content = some k
    | .group k (some n), none => F.group a.content = some k ∧ n = F.size k
    | .fatal, _ => False
    | _, _ => F.group a.content = none
  batch : ComputesBatch E.batch F.batch
  encodeBatch : Does E.encodeBatch F.encodeBatch

/-- The packs of one pass over the samples `l`: the buffers of `n` samples (at the end, fewer), what is selected from each of them, packed. Without packing, the samples. -/
def Packed (F : Fns C K) (packing : Option Nat) (l packs : List C) : Prop :=
  match packing with
  | none => packs = l
  | some n => ∃ buffers, Batches n false l buffers ∧ packs = (buffers.flatMap F.select).flatMap F.pack

/-- The batches of one pass over `l`: in order, or by group. -/
def Batched [DecidableEq K] (F : Fns C K) (grouped : Bool) (size : Nat) (dropLast : Bool) (l : List C) (batches : List (List C)) : Prop :=
  if grouped then batches = (groupedBatches (fun _ => size) dropLast (l.filterMap fun c => (F.group c).map (·, c))).map (·.2)
  else Batches size dropLast l batches

/-- The batches of the limited pass. -/
def ValOpts.cut {α : Type} (o : ValOpts) (nw i : Nat) (l : List α) : List α :=
  match o.limit with
  | none => l
  | some n => if 0 < n then l.take (localShare n nw i) else l

/-! ### Proofs -/

/-- Each pass delivers the contents `L`. -/
def Delivers (D : Dataset σ (Smp C) κ) (L : List C) : Prop := ∃ S, Cyclic D (fun xs => xs.map (·.content) = L) S

theorem mapSpec_contents {C' : Type} {f : MapFn C C'} {h : C → Option C'} (hf : Computes f h) (n : Nat) (xs : List (Smp C)) :
    (mapSpec f n xs).map (·.content) = (xs.map (·.content)).filterMap h := by
  induction xs generalizing n with
  | nil => simp [mapSpec]
  | cons a xs ih =>
    have ih := ih (n + 1)
    have h1 := hf n a
    unfold mapSpec at ih ⊢
    cases e : f n a with
    | ok c =>
      rw [e] at h1
      simp only at h1
      simp [List.zipIdx_cons, e, ih, h1]
    | skip | fail =>
      rw [e] at h1
      simp only at h1
      simp [List.zipIdx_cons, e, ih, h1]
    | fatal =>
      rw [e] at h1
      exact h1.elim

theorem map_delivers {C' : Type} {D : Dataset σ (Smp C) κ} {f : MapFn C C'} {h : C → Option C'} {st : Bool} {L : List C} (hf : Computes f h) (hD : Delivers D L) :
    Delivers (mapD D f st) (L.filterMap h) := by
  obtain ⟨S, hD⟩ := hD
  refine ⟨_, Cyclic.lift (fun n => ⟨n, .loop⟩) hD ⟨0, rfl⟩ (fun _ => ⟨0, rfl⟩) ?_⟩
  intro s xs s' n h1 h2
  refine ⟨_, _, C13_map_pass D f st n xs s s' h1 (fun q _ => ?_), by rw [mapSpec_contents hf, h2]⟩
  intro e
  have := hf q.2 q.1
  rw [e] at this
  exact this

theorem genOuts_contents {C' : Type} {f : GenFn C C'} {h : C → List C'} (hf : ∀ n a, f n a = (h a.content, .done)) (n : Nat) (xs : List (Smp C)) :
    (genOuts f n xs).map (·.content) = (xs.map (·.content)).flatMap h := by
  induction xs generalizing n with
  | nil => rfl
  | cons a xs ih =>
    rw [genOuts, List.map_append, ih, List.map_cons, List.flatMap_cons]
    congr 1
    unfold genOut
    rw [hf]
    apply List.ext_getElem
    · simp
    · intro k h1 h2
      simp

theorem gen_delivers {C' : Type} {D : Dataset σ (Smp C) κ} {f : GenFn C C'} {h : C → List C'} {st : Bool} {L : List C} (hf : ∀ n a, f n a = (h a.content, .done))
    (hD : Delivers D L) : Delivers (mapGenD D f st) (L.flatMap h) := by
  obtain ⟨S, hD⟩ := hD
  refine ⟨_, Cyclic.lift (fun n => ⟨n, none, .start⟩) hD ⟨0, rfl⟩ (fun _ => ⟨0, rfl⟩) ?_⟩
  intro s xs s' n h1 h2
  obtain ⟨g, h3, h4⟩ := C14_generator_pass D f st (fun i a => by rw [hf]; simp) xs s s' h1 n
  rw [h4 fun i a => by rw [hf]; simp] at h3
  exact ⟨_, _, h3, by rw [genOuts_contents hf, h2]⟩

/-- The one sample that a plain function gives. -/
def one? {α : Type} : List α → Option α
  | [c] => some c
  | _ => none

theorem Does.computes {f : MapFn C C} {st : Bool} {h : C → List C} (hu : Does (some (.plain f st)) h) : Computes f (fun c => one? (h c)) := by
  intro n a
  have h1 := hu n a
  cases e : f n a with
  | ok c => rw [e] at h1; simp only at h1 ⊢; rw [h1]; rfl
  | skip | fail => rw [e] at h1; simp only at h1 ⊢; rw [h1]; rfl
  | fatal => rw [e] at h1; exact h1.elim

theorem Does.flatMap {f : MapFn C C} {st : Bool} {h : C → List C} (hu : Does (some (.plain f st)) h) (L : List (Smp C)) :
    (L.map (·.content)).flatMap h = (L.map (·.content)).filterMap (fun c => one? (h c)) := by
  induction L with
  | nil => rfl
  | cons a L ih =>
    have h1 := hu 0 a
    rw [List.map_cons, List.flatMap_cons, List.filterMap_cons, ih]
    cases e : f 0 a with
    | ok c => rw [e] at h1; simp only at h1; rw [h1]; rfl
    | skip | fail => rw [e] at h1; simp only at h1; rw [h1]; rfl
    | fatal => rw [e] at h1; exact h1.elim

theorem flatMap_single {h : C → List C} (hu : ∀ c, h c = [c]) (L : List C) : L.flatMap h = L := by
  rw [show h = fun c => [c] from funext hu]
  simp

theorem mapStage_delivers {u : Option (UserMap C)} {h : C → List C} (hu : Does u h) {A : AnyDs C} {L : List C} (hA : Delivers A.D L) :
    Delivers (mapStage u A).D (L.flatMap h) := by
  match u, hu with
  | none, hu =>
    rw [flatMap_single hu]
    exact hA
  | some (.plain f st), hu =>
    have h1 := map_delivers (D := A.D) (st := st) hu.computes hA
    obtain ⟨S, hA⟩ := hA
    obtain ⟨xs, s', h2, h3, h4⟩ := hA.pass _ hA.init
    rw [← h4, ← hu.flatMap xs, h4] at h1
    exact h1
  | some (.gen f st), hu => exact gen_delivers (D := A.D) (st := st) hu hA

theorem onlyIf_delivers {st : Bool} {A : AnyDs C} {L : List C} (h : Delivers A.D L) : Delivers (onlyIf st A).D L := by
  obtain ⟨S, h⟩ := h
  refine ⟨S, h.init, h.reset, fun s hs => ?_⟩
  obtain ⟨xs, s', h1, h2⟩ := h.pass s hs
  exact ⟨xs, s', Dataset.withRestore_run.2 h1, h2⟩

theorem Batches.map {α β : Type} {bs : Nat} {dl : Bool} {xs : List α} {bss : List (List α)} (f : α → β) (h : Batches bs dl xs bss) :
    Batches bs dl (xs.map f) (bss.map (List.map f)) where
  concat := by
    obtain ⟨rest, h1, h2, h3⟩ := h.concat
    refine ⟨rest.map f, by rw [h1, List.map_append, List.map_flatten], by simpa using h2, fun e => by rw [h3 e]; rfl⟩
  full := by
    intro b hb
    rw [← List.map_dropLast] at hb
    obtain ⟨c, hc, rfl⟩ := List.mem_map.1 hb
    rw [List.length_map]
    exact h.full c hc
  last := by
    intro b hb
    obtain ⟨c, hc, rfl⟩ := List.mem_map.1 hb
    rw [List.length_map]
    exact h.last c hc

/-- The batches are determined. -/
theorem Batches.unique {α : Type} {bs : Nat} {dl : Bool} {xs : List α} {bss bss' : List (List α)} (h : Batches bs dl xs bss) (h' : Batches bs dl xs bss') :
    bss = bss' := by
  induction bss generalizing xs bss' with
  | nil =>
    cases bss' with
    | nil => rfl
    | cons b' bss' =>
      exfalso
      obtain ⟨r, h1, h2, h3⟩ := h.concat
      obtain ⟨r', h1', h2', h3'⟩ := h'.concat
      have hb := h'.last b' (by simp)
      simp only [List.flatten_nil, List.nil_append] at h1
      rw [h1', List.flatten_cons] at h1
      have hl := congrArg List.length h1
      simp only [List.length_append] at hl
      cases dl with
      | true => have := hb.2.2 rfl; omega
      | false => rw [h3 rfl] at hl; simp only [List.length_nil] at hl; omega
  | cons b bss ih =>
    cases bss' with
    | nil =>
      exfalso
      obtain ⟨r, h1, h2, h3⟩ := h.concat
      obtain ⟨r', h1', h2', h3'⟩ := h'.concat
      have hb := h.last b (by simp)
      simp only [List.flatten_nil, List.nil_append] at h1'
      rw [h1, List.flatten_cons] at h1'
      have hl := congrArg List.length h1'
      simp only [List.length_append] at hl
      cases dl with
      | true => have := hb.2.2 rfl; omega
      | false => rw [h3' rfl] at hl; simp only [List.length_nil] at hl; omega
    | cons b' bss' =>
      have key : ∀ {b : List α} {bss : List (List α)}, Batches bs dl xs (b :: bss) →
          b = xs.take bs ∧ (b.length = bs ∨ (bss = [] ∧ b = xs)) ∧ Batches bs dl (xs.drop b.length) bss := by
        intro b bss h
        obtain ⟨r, h1, h2, h3⟩ := h.concat
        have hb := h.last b (by simp)
        have hlast : ∀ c ∈ bss, 0 < c.length ∧ c.length ≤ bs ∧ (dl = true → c.length = bs) := fun c hc => h.last c (by simp [hc])
        have hd : xs.drop b.length = bss.flatten ++ r := by rw [h1, List.flatten_cons, List.append_assoc, List.drop_left]
        have hB : Batches bs dl (xs.drop b.length) bss := by
          refine ⟨⟨r, hd, h2, h3⟩, fun c hc => h.full c ?_, hlast⟩
          cases bss with
          | nil => simp at hc
          | cons c' l => simp only [List.dropLast_cons_cons]; exact List.mem_cons_of_mem _ hc
        by_cases hbs : b.length = bs
        · refine ⟨?_, .inl hbs, hB⟩
          rw [h1, List.flatten_cons, List.append_assoc, ← hbs, List.take_left]
        · have hdl : dl = false := by
            cases dl with
            | false => rfl
            | true => exact absurd (hb.2.2 rfl) hbs
          have hnil : bss = [] := by
            cases bss with
            | nil => rfl
            | cons c l => exact absurd (h.full b (by simp)) hbs
          subst hnil
          rw [h3 hdl] at h1
          simp only [List.flatten_cons, List.flatten_nil, List.append_nil] at h1
          refine ⟨?_, .inr ⟨rfl, h1.symm⟩, hB⟩
          rw [h1, List.take_of_length_le hb.2.1]
      obtain ⟨a1, a2, a3⟩ := key h
      obtain ⟨b1, b2, b3⟩ := key h'
      have e : b = b' := a1.trans b1.symm
      subst e
      rw [ih a3 b3]

theorem batchRes_contents {f : BatchFn C C} {h : List C → Option C} (hf : ComputesBatch f h) (n : Nat) (bss : List (List (Smp C))) :
    ((bss.zipIdx n).filterMap fun p => (f p.2 p.1).ok?) = (bss.map (List.map (·.content))).filterMap h := by
  induction bss generalizing n with
  | nil => rfl
  | cons b bss ih =>
    have h1 := hf n b
    rw [List.zipIdx_cons, List.map_cons, List.filterMap_cons, List.filterMap_cons, ih]
    cases e : f n b with
    | ok c => rw [e] at h1; simp only at h1; simp [BatchRes.ok?, h1]
    | skip => rw [e] at h1; simp only at h1; simp [BatchRes.ok?, h1]
    | fatal => rw [e] at h1; exact h1.elim

theorem batch_delivers {D : Dataset σ (Smp C) κ} {bs : Nat} (hbs : 0 < bs) {dl : Bool} {f : BatchFn C C} {bt : List C → Option C} {L : List C} {bss : List (List C)}
    (hf : ComputesBatch f bt) (hb : Batches bs dl L bss) (hD : Delivers D L) : Delivers (batchD D bs dl f) (bss.filterMap bt) := by
  obtain ⟨S, hD⟩ := hD
  refine ⟨_, Cyclic.lift (fun n => ⟨n, [], [], .loop⟩) hD ⟨0, rfl⟩ (fun _ => ⟨0, rfl⟩) ?_⟩
  intro s xs s' n h1 h2
  have hnf : ∀ i b, f i b ≠ .fatal := by
    intro i b e
    have := hf i b
    rw [e] at this
    exact this
  obtain ⟨bss', ys, h3, h4, h6, _⟩ := C26_batch_failures_partial D bs hbs dl f hnf xs s s' h1 n
  refine ⟨_, _, h4, ?_⟩
  have h5 := Batches.map (·.content) h3
  rw [h2] at h5
  rw [← Batches.unique h5 hb, h6, batchRes_contents hf]

theorem outP_contents {gen : Bool} {f : FinalFn C C} {pack : List C → List C} (hf : ∀ i l, (f i l).1 = pack (l.map (·.content))) (j : Nat) (ps : List (List (Smp C))) :
    (outP gen f j ps).map (·.content) = (ps.map (List.map (·.content))).flatMap pack := by
  induction ps generalizing j with
  | nil => rfl
  | cons q ps ih =>
    have e : outP gen f j (q :: ps) = outP gen f j [q] ++ outP gen f (j + 1) ps := outP_append (gen := gen) (f := f) j [q] ps
    rw [e, List.map_append, ih, List.map_cons, List.flatMap_cons]
    congr 1
    simp only [outP, List.zipIdx_cons, List.zipIdx_nil, List.flatMap_cons, List.flatMap_nil, List.append_nil, List.map_map]
    rw [← hf j q]
    generalize (f j q).1 = l
    apply List.ext_getElem
    · simp
    · intro k h1 h2
      simp

theorem packsOf_contents {p : Nat → List (Smp C) → List (List (Smp C))} {select : List C → List (List C)}
    (hp : ∀ i l, (p i l).map (List.map (·.content)) = select (l.map (·.content))) (i : Nat) (cs : List (List (Smp C))) :
    (packsOf p i cs).map (List.map (·.content)) = (cs.map (List.map (·.content))).flatMap select := by
  induction cs generalizing i with
  | nil => rfl
  | cons c cs ih =>
    have e : packsOf p i (c :: cs) = p i c ++ packsOf p (i + 1) cs := by simp [packsOf]
    rw [e, List.map_append, ih, hp, List.map_cons, List.flatMap_cons]

theorem packStage_delivers {E : Encoder C K} {F : Fns C K} {packing : Option Nat} (h : ∀ n, packing = some n → E.Packs F n) {A : AnyDs C} {L : List C}
    (hA : Delivers A.D L) : ∃ A', packStage E packing A = .ok A' ∧ ∃ L', Packed F packing L L' ∧ Delivers A'.D L' := by
  cases packing with
  | none => exact ⟨A, rfl, L, rfl, hA⟩
  | some n =>
    obtain ⟨hn, hne, pre, gen, f, h1, h2, h3⟩ := h n rfl
    refine ⟨_, by simp only [packStage, h1]; rfl, ?_⟩
    choose p hp1 hp2 using h2
    have hne' : ∀ i l, l.length = n → p i l ≠ [] := by
      intro i l hl e
      have := hp2 i l
      rw [e] at this
      exact hne (l.map (·.content)) (by simpa using hl) this.symm
    obtain ⟨S, hA⟩ := hA
    obtain ⟨xs0, _, _, _, h5⟩ := hA.pass _ hA.init
    obtain ⟨bss, h4⟩ : ∃ bss, Batches n false L bss := by
      obtain ⟨chunks, h6, _⟩ := C30_packing_pass A.D n hn pre gen f (fun i l => (h3 i l).2) p hp1 (.of_always hne') xs0 _ _ (by assumption) 0 0
      exact ⟨_, h5 ▸ Batches.map (fun a : Smp C => a.content) h6⟩
    refine ⟨_, ⟨bss, h4, rfl⟩, onlyIf_delivers (A := ⟨_, _, packD A.D n pre gen f⟩) ⟨_, Cyclic.lift (ι := Nat × Nat) (fun q => ⟨[], [], [], q.1, q.2, .check 0⟩) hA ⟨(0, 0), rfl⟩
      (fun _ => ⟨(0, 0), rfl⟩) ?_⟩⟩
    intro s xs s' q h6 h7
    obtain ⟨chunks, h8, h9⟩ := C30_packing_pass A.D n hn pre gen f (fun i l => (h3 i l).2) p hp1 (.of_always hne') xs s s' h6 q.1 q.2
    refine ⟨_, (_, _), h9, ?_⟩
    have h10 := Batches.map (·.content) h8
    rw [h7] at h10
    rw [outP_contents fun i l => (h3 i l).1, packsOf_contents hp2, Batches.unique h10 h4]

theorem membersOf_map {α β : Type} [DecidableEq K] (h : α → β) (k : K) (l : List (K × α)) : membersOf k (l.map (Prod.map id h)) = (membersOf k l).map h := by
  induction l with
  | nil => rfl
  | cons q l ih =>
    unfold membersOf at ih ⊢
    rw [List.map_cons, List.filter_cons, List.filter_cons]
    by_cases hq : q.1 = k
    · simp [hq, ih]
    · simp [hq, ih]

theorem groupedBatches_map {α β : Type} [DecidableEq K] (h : α → β) (size : K → Nat) (dl : Bool) (l : List (K × α)) :
    groupedBatches size dl (l.map (Prod.map id h)) = (groupedBatches size dl l).map (Prod.map id (List.map h)) := by
  have h1 : fullBatches size (l.map (Prod.map id h)) = (fullBatches size l).map (Prod.map id (List.map h)) := by
    unfold fullBatches
    rw [List.map_filterMap, List.length_map]
    refine List.filterMap_congr fun p _ => ?_
    unfold completes
    rw [List.getElem?_map]
    cases l[p]? with
    | none => rfl
    | some q =>
      simp only [Option.map_some, Option.bind_some, ← List.map_take, membersOf_map, List.length_map, Prod.map_fst, id]
      split
      · simp [List.map_drop]
      · rfl
  have h2 : leftovers size (l.map (Prod.map id h)) = (leftovers size l).map (Prod.map id (List.map h)) := by
    unfold leftovers
    rw [List.map_filterMap, List.map_map]
    have e : l.map ((fun q : K × β => q.1) ∘ Prod.map id h) = l.map (·.1) := rfl
    rw [e]
    refine List.filterMap_congr fun k _ => ?_
    unfold leftover
    rw [membersOf_map, List.length_map, ← List.map_drop, List.isEmpty_map]
    split <;> simp
  unfold groupedBatches
  rw [h1, h2, List.map_append]
  cases dl <;> simp

theorem outG_contents [DecidableEq K] {f : BatchFn C C} {h : List C → Option C} (hf : ComputesBatch f h) (n : Nat) (bs : List (K × List (Smp C))) :
    (outG f n bs).map (·.content) = (bs.map fun b => b.2.map (·.content)).filterMap h := by
  induction bs generalizing n with
  | nil => rfl
  | cons b bs ih =>
    have e : outG f n (b :: bs) = outG f n [b] ++ outG f (n + 1) bs := outG_append f n [b] bs
    have h1 := hf n b.2
    rw [e, List.map_append, ih, List.map_cons, List.filterMap_cons]
    cases e2 : f n b.2 with
    | ok c => rw [e2] at h1; simp only at h1; simp [outG, e2, h1]
    | skip => rw [e2] at h1; simp only at h1; simp [outG, e2, h1]
    | fatal => rw [e2] at h1; exact h1.elim

theorem keyed_contents [DecidableEq K] {fixed : Option Nat} {key : GroupFn C K} {g : C → Option K} (hg : ∀ i a, groupKey fixed key i a = g a.content) (n : Nat) (xs : List (Smp C)) :
    (keyed fixed key n xs).map (Prod.map id (·.content)) = (xs.map (·.content)).filterMap fun c => (g c).map (·, c) := by
  induction xs generalizing n with
  | nil => rfl
  | cons a xs ih =>
    rw [keyed_cons, List.map_append, ih, List.map_cons, List.filterMap_cons, hg]
    cases g a.content <;> rfl

theorem Encoder.Is.sizes [DecidableEq K] {E : Encoder C K} {F : Fns C K} {batchSize packing : Option Nat} (hE : E.Is F batchSize packing) {key : GroupFn C K} (hg : E.group = some key) :
    (∀ i a, key i a ≠ .fatal) ∧ (∀ i a, groupKey batchSize key i a = F.group a.content) ∧ SizeOf batchSize key (F.sizeOf batchSize) := by
  obtain ⟨h1, h2⟩ := hE.group key hg
  refine ⟨?_, ?_, h1, ?_⟩
  · intro i a e
    have := h2 i a
    rw [e] at this
    exact this
  · intro i a
    have := h2 i a
    unfold groupKey
    cases e : key i a with
    | group k b =>
      rw [e] at this
      cases b <;> cases batchSize <;> simp only at this ⊢ <;> first | exact this.symm | exact this.1.symm
    | skip => rw [e] at this; cases batchSize <;> simp only at this ⊢ <;> exact this.symm
    | fatal => rw [e] at this; exact this.elim
  · cases batchSize with
    | some n => exact fun _ => rfl
    | none =>
      intro i a k n e
      have := h2 i a
      rw [e] at this
      exact this.2

theorem ComputesBatch.notFatal {f : BatchFn C C} {h : List C → Option C} (hf : ComputesBatch f h) : ∀ i b, f i b ≠ .fatal := by
  intro i b e
  have := hf i b
  rw [e] at this
  exact this

theorem group_delivers [DecidableEq K] {E : Encoder C K} {F : Fns C K} {batchSize packing : Option Nat} (hE : E.Is F batchSize packing) {key : GroupFn C K} (hg : E.group = some key)
    {D : Dataset σ (Smp C) κ} {dl : Bool} {L : List C} (hD : Delivers D L) :
    Delivers (groupD D batchSize key E.batch dl) (((groupedBatches (F.sizeOf batchSize) dl (L.filterMap fun c => (F.group c).map (·, c))).map (·.2)).filterMap F.batch) := by
  obtain ⟨S, hD⟩ := hD
  refine ⟨_, Cyclic.lift (ι := Nat × Nat) (fun q => ⟨q.1, q.2, [], .loop⟩) hD ⟨(0, 0), rfl⟩ (fun y => ⟨(y.gidx, y.bidx), rfl⟩) ?_⟩
  intro s xs s' q h1 h2
  obtain ⟨hk, hg', hs⟩ := hE.sizes hg
  refine ⟨_, (_, _), C28_group_order D batchSize key E.batch dl hE.batch.notFatal hk _ hs xs s s' h1 q.1 q.2, ?_⟩
  rw [outG_contents hE.batch, ← h2, ← keyed_contents hg' q.1 xs, groupedBatches_map, List.map_map]
  rfl

theorem batches_exist {α : Type} (bs : Nat) (hbs : 0 < bs) (dl : Bool) (xs : List α) : ∃ bss, Batches bs dl xs bss := by
  generalize hn : xs.length = n
  induction n using Nat.strongRecOn generalizing xs with
  | _ n ih =>
    by_cases h : bs ≤ xs.length
    · obtain ⟨bss, hb⟩ := ih (xs.drop bs).length (by rw [List.length_drop]; omega) (xs.drop bs) rfl
      have hl : (xs.take bs).length = bs := by rw [List.length_take]; omega
      refine ⟨xs.take bs :: bss, ?_, ?_, ?_⟩
      · obtain ⟨r, h1, h2⟩ := hb.concat
        refine ⟨r, ?_, h2⟩
        rw [List.flatten_cons, List.append_assoc, ← h1, List.take_append_drop]
      · intro b hb'
        cases bss with
        | nil => simp at hb'
        | cons c l =>
          simp only [List.dropLast_cons_cons, List.mem_cons] at hb'
          rcases hb' with rfl | hb'
          · exact hl
          · exact hb.full b hb'
      · intro b hb'
        rcases List.mem_cons.1 hb' with rfl | hb'
        · rw [hl]; exact ⟨hbs, Nat.le_refl _, fun _ => rfl⟩
        · exact hb.last b hb'
    · by_cases h0 : xs = [] ∨ dl = true
      · refine ⟨[], ⟨xs, rfl, by omega, fun e => ?_⟩, by simp, by simp⟩
        rcases h0 with h0 | h0
        · exact h0
        · rw [h0] at e; cases e
      · push Not at h0
        refine ⟨[xs], ⟨[], by simp, by simpa using hbs, fun _ => rfl⟩, by simp, ?_⟩
        intro b hb
        simp only [List.mem_singleton] at hb
        subst hb
        exact ⟨List.length_pos_iff.2 h0.1, by omega, fun e => absurd e h0.2⟩

theorem log_delivers {D : Dataset σ (Smp C) κ} {L : List C} (h : Delivers D L) : Delivers (logD D) L := by
  obtain ⟨S, h⟩ := h
  exact log_cyclic h

theorem limitStage_delivers {o : ValOpts} {nw i : Nat} {A : AnyDs C} {L : List C} (h : Delivers A.D L) : Delivers (limitStage o.limit nw i A).D (o.cut nw i L) := by
  unfold ValOpts.cut
  cases o.limit with
  | none => exact h
  | some n =>
    by_cases hn : 0 < n
    · have e : limitStage (some n) nw i A = ⟨_, _, limitD A.D n nw i true⟩ := if_pos hn
      rw [e]
      simp only [if_pos hn]
      obtain ⟨S, h⟩ := h
      refine ⟨fun q => S q.1 ∧ q.2 = ⟨0, .start⟩, ⟨h.init, rfl⟩, fun q => ⟨h.reset q.1, rfl⟩, ?_⟩
      rintro ⟨s, y⟩ ⟨h1, rfl⟩
      obtain ⟨xs, s', h2, h3, h4⟩ := h.pass s h1
      obtain ⟨s'', h5, h6⟩ := C18_limit_pass_reset A.D n nw i true xs s s' h2
      refine ⟨_, _, h5, ⟨?_, rfl⟩, by rw [List.map_take, h4]⟩
      rcases h6 with ⟨t, rfl⟩
      exact h.reset _
    · have e : limitStage (some n) nw i A = A := if_neg hn
      rw [e]
      simp only [if_neg hn]
      exact h

theorem concat_delivers {D : Nat → Dataset σ (Smp C) κ} {n : Nat} {L : Nat → List C} (h : ∀ i, Delivers (D i) (L i)) :
    Delivers (concatD D n) ((List.range n).flatMap L) := by
  choose S h using h
  refine ⟨fun q => (∀ i, S i (q.1 i)) ∧ q.2 = .part 0, ⟨fun i => (h i).init, rfl⟩, fun q => ⟨fun i => (h i).reset _, rfl⟩, ?_⟩
  rintro ⟨s, y⟩ ⟨h1, rfl⟩
  choose xs s' g1 g2 g3 using fun i => (h i).pass (s i) (h1 i)
  have hp := C24_concat_pass D n s (fun i => if i < n then s' i else s i) xs (fun i hi => by simp only [if_pos hi]; exact g1 i)
    (fun i hi => by simp only [if_neg (Nat.not_lt.2 hi)])
  refine ⟨_, _, hp, ⟨fun i => ?_, rfl⟩, ?_⟩
  · dsimp only
    split
    · exact g2 i
    · exact h1 i
  · rw [List.map_flatMap]
    congr 1
    funext i
    rw [← g3 i, List.map_map]
    rfl

/-! ### The parts -/

theorem slice_contents (d : Disk B C) (name : String) (a n : Nat) : ∀ x ∈ (mkSlice d.tars name a n).samples, [x.content] = (leaves x.key).map d.raw := by
  intro x hx
  unfold mkSlice Wds.samplesOf at hx
  obtain ⟨p, hp, rfl⟩ := List.mem_map.1 hx
  obtain ⟨g, k⟩ := p
  obtain ⟨h1, h2, h3⟩ := List.mem_zipIdx hp
  have e : leaves (sampleOf name k g).key = [(name, k)] := leaves_raw name k
  simp only
  rw [e]
  simp only [List.map_cons, List.map_nil, Disk.raw]
  have : (groups (entries (d.tars name))).getD k [] = g := by
    rw [h3]
    unfold sliceGroups at h2 ⊢
    rw [List.length_take, List.length_drop] at h2
    rw [List.getElem_take, List.getElem_drop, List.getD_eq_getElem?_getD, List.getElem?_eq_getElem (by omega), Option.getD_some]
    congr 1
    omega
  rw [this]

theorem contents_eq (d : Disk B C) {xs : List (Smp (Raw B))} (h : ∀ x ∈ xs, [x.content] = (leaves x.key).map d.raw) :
    xs.map (·.content) = (leavesOf xs).map d.raw := by
  induction xs with
  | nil => rfl
  | cons x xs ih =>
    have e : leavesOf (x :: xs) = leaves x.key ++ leavesOf xs := by simp [leavesOf]
    rw [e, List.map_cons, List.map_append, ← h x (by simp), ← ih fun y hy => h y (by simp [hy])]
    rfl

theorem buildPart_delivers (R : WRng ρ) {d : Disk B C} (hd : d.Val) {w : Sharder.WorkerConfig} (hr : w.rank < w.worldSize) {i : Nat}
    (hi : i < w.workers) {ld : Raw B → Option C} (hl : Computes d.load ld) :
    ∃ D, buildPart R d false w 0 i = .ok D ∧ Delivers D ((d.raws w i).filterMap ld) := by
  obtain ⟨p, h1, h2, h3, h4, _, h6⟩ := slicesFor_ok hd.ok hr 0 hi
  refine ⟨_, by unfold buildPart; rw [h1], ?_⟩
  have hv := loaderCfg_valid hd.ok false (.inr hd.parallel) h2
  refine map_delivers (D := loaderD R _ (restoreTars d.tars fun _ _ => false)) (st := true) hl ⟨_, Cyclic.mono (loader_cyclic hv rfl rfl) ?_⟩
  rintro xs rfl
  have e : leavesOf (loaderCfg d false (p.map fun s => mkSlice d.tars s.head.name s.head.offset s.head.count)).samples = d.reads w i := by
    unfold Disk.reads
    rw [show ((0 : Nat) : Int) = 0 from rfl] at h6
    rw [h6, ← leaves_slices hd.ok hd.counted h4]
    unfold Cfg.samples loaderCfg
    rw [List.flatMap_def]
  rw [contents_eq d, e]
  · rfl
  · intro x hx
    unfold Cfg.samples at hx
    obtain ⟨l, hl, hx⟩ := List.mem_flatten.1 hx
    obtain ⟨s, hs, rfl⟩ := List.mem_map.1 hl
    obtain ⟨t, ht, rfl⟩ := List.mem_map.1 hs
    exact slice_contents d _ _ _ x hx

theorem buildParts_delivers (R : Rngs ρ) {w : Sharder.WorkerConfig} (hr : w.rank < w.worldSize) {i : Nat} (hi : i < w.workers)
    (l : List (Disk B C)) (h : ∀ d ∈ l, d.Val) (ld : Disk B C → Raw B → Option C) (hl : ∀ d ∈ l, Computes d.load (ld d)) (j : Nat) :
    ∃ Ds, buildParts R false w i j (l.map fun d => (d, 0)) = .ok Ds ∧ Ds.length = l.length ∧
      ∀ (k : Nat) D (d : Disk B C), Ds[k]? = some D → l[k]? = some d → Delivers D ((d.raws w i).filterMap (ld d)) := by
  induction l generalizing j with
  | nil => exact ⟨[], rfl, rfl, by simp⟩
  | cons d l ih =>
    obtain ⟨D, g1, g2⟩ := buildPart_delivers (R.reader j) (h d (by simp)) hr hi (hl d (by simp))
    obtain ⟨Ds, k1, k2, k3⟩ := ih (fun q hq => h q (by simp [hq])) (fun q hq => hl q (by simp [hq])) (j + 1)
    refine ⟨D :: Ds, by simp only [List.map_cons, buildParts, g1, k1], by simp [k2], ?_⟩
    intro k E e hE he
    cases k with
    | zero => cases hE; cases he; exact g2
    | succ k => exact k3 k E e (by simpa using hE) (by simpa using he)

theorem valSource_delivers (R : Rngs ρ) {ds : List (Disk B C)} (hne : ds ≠ []) {w : Sharder.WorkerConfig} (hr : w.rank < w.worldSize) {i : Nat}
    (hi : i < w.workers) (h : ∀ d ∈ ds, d.Val) (ld : Disk B C → Raw B → Option C) (hl : ∀ d ∈ ds, Computes d.load (ld d)) :
    ∃ A, valSource R ds w i = .ok A ∧ Delivers A.D (ds.flatMap fun d => (d.raws w i).filterMap (ld d)) := by
  match ds, hne, h, hl with
  | [d], _, h, hl =>
    obtain ⟨D, g1, g2⟩ := buildPart_delivers (R.reader 0) (h d (by simp)) hr hi (hl d (by simp))
    exact ⟨⟨_, _, D⟩, by simp only [valSource, g1], by simpa using g2⟩
  | d :: d' :: l, _, h, hl =>
    obtain ⟨Ds, g1, g2, g3⟩ := buildParts_delivers R hr hi (d :: d' :: l) h ld hl 0
    cases Ds with
    | nil => simp at g2
    | cons D Ds =>
      refine ⟨⟨_, _, concatD (nth D Ds) (Ds.length + 1)⟩, by simp only [valSource, g1], ?_⟩
      have hc : ∀ k, Delivers (nth D Ds k) ((fun d : Disk B C => (d.raws w i).filterMap (ld d)) ((d :: d' :: l).getD k d)) := by
        intro k
        unfold nth
        by_cases hk : k < (D :: Ds).length
        · rw [List.getD_eq_getElem?_getD, List.getD_eq_getElem?_getD]
          rw [List.getElem?_eq_getElem hk, List.getElem?_eq_getElem (g2 ▸ hk)]
          exact g3 k _ _ (List.getElem?_eq_getElem hk) (List.getElem?_eq_getElem (g2 ▸ hk))
        · rw [List.getD_eq_getElem?_getD, List.getD_eq_getElem?_getD]
          rw [List.getElem?_eq_none (by omega), List.getElem?_eq_none (by omega)]
          exact g3 0 _ _ rfl rfl
      have := concat_delivers (n := Ds.length + 1) hc
      have e : (List.range (Ds.length + 1)).flatMap (fun k => (fun d : Disk B C => (d.raws w i).filterMap (ld d)) ((d :: d' :: l).getD k d)) =
          (d :: d' :: l).flatMap fun d => (d.raws w i).filterMap (ld d) := by
        have : Ds.length + 1 = (d :: d' :: l).length := by simpa using g2
        rw [this]
        generalize d :: d' :: l = l
        have : l = (List.range l.length).map fun k => l.getD k d := by
          apply List.ext_getElem
          · simp
          · intro k h1 h2
            simp [List.getD_eq_getElem?_getD, List.getElem?_eq_getElem h1]
        conv_rhs => rw [this, List.flatMap_map]
      rw [e] at this
      exact this

/-! ### The theorem -/

theorem batchStage_delivers [DecidableEq K] {E : Encoder C K} {F : Fns C K} {packing : Option Nat} {n : Nat} (hE : E.Is F (some n) packing) (hn : 0 < n) {dl : Bool} {A : AnyDs C}
    {L : List C} (hA : Delivers A.D L) :
    ∃ A', batchStage E (some n) dl A = .ok A' ∧ ∃ batches, Batched F E.group.isSome n dl L batches ∧
      Delivers A'.D (if E.group.isSome then batches.filterMap F.batch else (batches.filterMap F.batch).flatMap F.encodeBatch) := by
  unfold batchStage
  cases hg : E.group with
  | some key =>
    refine ⟨_, rfl, _, rfl, ?_⟩
    exact onlyIf_delivers (A := ⟨_, _, groupD A.D (some n) key E.batch dl⟩) (group_delivers hE hg hA)
  | none =>
    obtain ⟨bss, h4⟩ := batches_exist n hn dl L
    refine ⟨_, rfl, bss, h4, ?_⟩
    exact mapStage_delivers hE.encodeBatch (onlyIf_delivers (st := E.batchStateless) (A := ⟨_, _, batchD A.D n dl E.batch⟩) (batch_delivers hn hE.batch h4 hA))

/-- **C68.** What a worker delivers in each validation pass: the raw samples of its part of the datasets are read from the tar files in order, loaded, cooked and encoded (samples for
which one of these functions raises are left out), packed if there is packing, cut into batches of the batch size or collected in batches by group; each batch is batched and, without grouping, encoded, and the
share of this worker of the limit is taken. The same in every pass. Missing for the full statement: functions whose result depends on the sample index; generator functions that raise (see
`C14_violated_next_pass`); with grouping, batches are not put through `encode_batch` (`C68_violated_encode_batch`). -/
theorem C68_val_contents_partial [DecidableEq K] (R : Rngs ρ) (E : Encoder C K) (ds : List (Disk B C)) (o : ValOpts) (w : Sharder.WorkerConfig) (i : Nat)
    (hne : ds ≠ []) (hds : ∀ d ∈ ds, d.Val) (hr : w.rank < w.worldSize) (hi : i < w.workers) (hb : 0 < o.batchSize)
    (load : Disk B C → Raw B → Option C) (hload : ∀ d ∈ ds, Computes d.load (load d)) (F : Fns C K) (hE : E.Is F (some o.batchSize) o.packing) :
    ∃ A, valDs R E ds o w i = .ok A ∧ ∃ out, Passes A.D out ∧ ∃ packs batches,
      Packed F o.packing (((ds.flatMap fun d => (d.raws w i).filterMap (load d)).flatMap F.cook).flatMap F.encode) packs ∧
      Batched F E.group.isSome o.batchSize o.dropLast packs batches ∧
      ∀ k, (out k).map (·.content) =
        o.cut w.numWorkers i (if E.group.isSome then batches.filterMap F.batch else (batches.filterMap F.batch).flatMap F.encodeBatch) := by
  obtain ⟨A, h1, h2⟩ := valSource_delivers R hne hr hi hds load hload
  have h3 := mapStage_delivers hE.encode (mapStage_delivers hE.cook h2)
  obtain ⟨A1, h4, packs, h5, h6⟩ := packStage_delivers hE.pack h3
  obtain ⟨A2, h7, batches, h8, h9⟩ := batchStage_delivers hE hb (dl := o.dropLast) h6
  have h10 := limitStage_delivers (o := o) (nw := w.numWorkers) (i := i) h9
  have h11 : Delivers (logStage o.logging (limitStage o.limit w.numWorkers i A2)).D
      (o.cut w.numWorkers i (if E.group.isSome then batches.filterMap F.batch else (batches.filterMap F.batch).flatMap F.encodeBatch)) := by
    cases o.logging with
    | false => exact h10
    | true => exact log_delivers h10
  obtain ⟨S, h11⟩ := h11
  obtain ⟨out, h12, h13⟩ := h11.passes
  exact ⟨_, by simp only [valDs, h1, buildBatch, h4, h7], out, h12, packs, batches, h5, h8, h13⟩

theorem exVals : ∀ d ∈ [exDisk "a" 10 4, exDisk "b" 100 7], d.Val ∧ Computes d.load (fun r => some (r.parts.map (·.2)).sum) := by
  intro d hd
  simp only [List.mem_cons, List.not_mem_nil, or_false] at hd
  rcases hd with rfl | rfl
  · exact ⟨exDisk_val _ _ _ (by decide) (by decide +kernel), fun _ _ => rfl⟩
  · exact ⟨exDisk_val _ _ _ (by decide) (by decide +kernel), fun _ _ => rfl⟩

/-- An example: the second worker of two ranks with two workers. -/
example := C68_val_contents_partial exR exE [exDisk "a" 10 4, exDisk "b" 100 7] ⟨2, true, none, some 3, true⟩ ⟨1, 2, 2⟩ 0 (by simp)
  (fun d hd => (exVals d hd).1) (by decide) (by decide) (by decide) _ (fun d hd => (exVals d hd).2)
  ⟨fun c => [c], fun c => [2 * c], fun l => [l], fun l => l, fun _ => none, fun _ => 2, fun l => some l.sum, fun c => [c]⟩
  ⟨fun _ => rfl, fun _ _ => rfl, (by intro _ h; cases h), (by intro _ h; cases h), fun _ _ => rfl, fun _ => rfl⟩

/-- Encode by a generator function, pack all of a buffer, group by remainder. -/
def exG : Encoder Nat Nat :=
  { cook := none, encode := some (.gen (fun _ a => ([a.content, 2 * a.content], .done)) true), pack := some (fun _ l => some [l], true, fun _ l => (l.map (·.content), .done))
    group := some fun _ a => .group (a.content % 4) none, batch := fun _ b => .ok (b.map (·.content)).sum, batchOverridden := true
    encodeBatch := some (.plain (fun _ _ => .ok 1) true) }

/-- An example with packing, grouping and generator functions. -/
example := C68_val_contents_partial exR exG [exDisk "a" 10 4, exDisk "b" 100 7] ⟨2, true, some 3, some 3, true⟩ ⟨1, 2, 2⟩ 0 (by simp)
  (fun d hd => (exVals d hd).1) (by decide) (by decide) (by decide) _ (fun d hd => (exVals d hd).2)
  ⟨fun c => [c], fun c => [c, 2 * c], fun l => [l], fun l => l, fun c => some (c % 4), fun _ => 2, fun l => some l.sum, fun _ => [1]⟩
  ⟨fun _ => rfl, fun _ _ => rfl, (by intro n h; cases h; exact ⟨by decide, by simp, _, _, _, rfl, fun i l => ⟨_, rfl, rfl⟩, fun i l => ⟨rfl, fun h => by cases h⟩⟩),
    (by intro _ h; cases h; exact ⟨fun _ => Nat.succ_pos _, fun _ _ => rfl⟩), fun _ _ => rfl, fun _ _ => rfl⟩

/-- With packing: what is delivered. -/
example : delivered (valDs exR exG [exDisk "a" 10 4, exDisk "b" 100 7] ⟨2, false, some 3, none, true⟩ ⟨1, 2, 2⟩ 0) 100 =
    [some 36, some 312, some 105, some 210, none, some 36] := by decide +kernel

/-- **C68 is violated** with grouping: the batches are not put through `encode_batch`. Here `encode_batch` gives 1 for every batch, but another batch is delivered. -/
theorem C68_violated_encode_batch :
    ∃ (E : Encoder Nat Nat) (A : AnyDs Nat) (a : Smp Nat) (s : A.σ), E.encodeBatch = some (.plain (fun _ _ => .ok 1) true) ∧
      valDs exR E [exDisk "a" 10 4, exDisk "b" 100 7] ⟨2, false, none, none, false⟩ ⟨1, 2, 2⟩ 0 = .ok A ∧ Obs A.D.step A.D.init (.item a s) ∧ a.content ≠ 1 := by
  generalize hX : valDs exR exG [exDisk "a" 10 4, exDisk "b" 100 7] ⟨2, false, none, none, false⟩ ⟨1, 2, 2⟩ 0 = X
  have h : (delivered X 60).head? = some (some 36) := by rw [← hX]; decide +kernel
  cases X with
  | error e => cases h
  | ok A =>
    have h1 := A.D.eval_trace 60 A.D.init
    simp only [delivered] at h
    generalize A.D.eval 60 A.D.init = l at h h1
    cases h1 with
    | item ho _ =>
      rename_i a s _ _
      refine ⟨exG, A, a, s, rfl, hX, ho, ?_⟩
      simp only [List.map_cons, List.head?_cons, Option.some.injEq] at h
      rw [h]
      decide
    | _ => cases h

end Verif.Pipeline
