import Verif.Wrap.PackModel
import Verif.Wrap.BatchProps
import Verif.Wrap.ShuffleLemmas
import Verif.Stream.Ends

/-! # Lemmas about PackingDataset -/

namespace Verif.Stream

variable {σ κ C C' : Type} {D : Dataset σ (Smp C) κ} {size : Nat} {pre : PreFn C} {gen : Bool} {f : FinalFn C C'}

/-- What is delivered for the packs `ps`, of which the first has index `j`: what the final packer makes of each of them,
with the keys of the samples of the pack. -/
def outP (gen : Bool) (f : FinalFn C C') (j : Nat) (ps : List (List (Smp C))) : List (Smp C') :=
  (ps.zipIdx j).flatMap fun p => (f p.2 p.1).1.zipIdx.map fun c => ⟨c.1, packKey gen p.2 c.2 (p.1.map (·.key))⟩

/-- The packs the pre packer `p` makes of the chunks, of which the first has index `i`. -/
def packsOf (p : Nat → List (Smp C) → List (List (Smp C))) (i : Nat) (chunks : List (List (Smp C))) : List (List (Smp C)) :=
  (chunks.zipIdx i).flatMap fun c => p c.2 c.1

theorem outP_append (j : Nat) (ps qs : List (List (Smp C))) :
    outP gen f j (ps ++ qs) = outP gen f j ps ++ outP gen f (j + ps.length) qs := by
  simp [outP, List.zipIdx_append]

theorem packsOf_append (p : Nat → List (Smp C) → List (List (Smp C))) (i : Nat) (c d : List (List (Smp C))) :
    packsOf p i (c ++ d) = packsOf p i c ++ packsOf p (i + c.length) d := by
  simp [packsOf, List.zipIdx_append]

theorem pack_noReset : (packW D size pre gen f).NoReset := by
  rintro ⟨rb, pb, lens, i, j, c⟩ x' h
  cases c with
  | check r => simp only [packW] at h; cases h
  | fill r =>
    simp only [packW, prePack] at h
    split at h
    · cases h
    · split at h
      · cases h
      · split at h
        · cases h
        · split at h
          · cases h
          · split at h
            · cases h
            · split at h <;> cases h
  | ended =>
    simp only [packW, prePack] at h
    split at h
    · cases h
    · split at h
      · cases h
      · split at h <;> cases h
  | final last =>
    simp only [packW] at h
    split at h <;> cases h
  | sub last idx k keys rest e =>
    cases rest with
    | nil => simp only [packW] at h; split at h <;> cases h
    | cons => simp only [packW] at h; cases h
  | drain => simp only [packW] at h; split at h <;> cases h
  | dead => simp only [packW] at h; cases h

theorem pack_sub_trans (hf : ∀ i l, (f i l).2 ≠ .fatal) (last : Bool) (rb pb : List (Smp C)) (lens : List Nat)
    (i j : Nat) (idx : Nat) (l keys) (e : FinalEnd) (he : e = (f idx l).2) (outs : List C') : ∀ k : Nat,
    (packW D size pre gen f).Trans ⟨rb, pb, lens, i, j, .sub last idx k keys outs e⟩ []
      (((outs.zipIdx k).map fun c => (⟨c.1, packKey gen idx c.2 keys⟩ : Smp C')).map .item)
      ⟨rb, pb, lens, i, j, if last then .drain else .check 0⟩ := by
  subst he
  induction outs with
  | nil =>
    intro k
    refine .tau (W := packW D size pre gen f) ?_ .nil
    simp only [packW, hf, if_false]
  | cons c cs ih =>
    intro k
    exact .emit (W := packW D size pre gen f) (by rfl) (ih (k + 1))

theorem pack_final_trans (hf : ∀ i l, (f i l).2 ≠ .fatal) (last : Bool) (rb p pb : List (Smp C)) (lens : List Nat)
    (i j : Nat) :
    (packW D size pre gen f).Trans ⟨rb, p ++ pb, p.length :: lens, i, j, .final last⟩ []
      ((outP gen f j [p]).map .item) ⟨rb, pb, lens, i, j + 1, if last then .drain else .check 0⟩ := by
  refine .tau (W := packW D size pre gen f)
    (x' := ⟨rb, pb, lens, i, j + 1, .sub last j 0 (p.map (·.key)) (f j p).1 (f j p).2⟩) ?_ ?_
  · simp only [packW, List.take_left, List.drop_left]
  · have := pack_sub_trans (D := D) (size := size) (pre := pre) (gen := gen) hf last rb pb lens i (j + 1) j p
      (p.map (·.key)) _ rfl (f j p).1 0
    simpa [outP] using this

theorem pack_drain_trans (hf : ∀ i l, (f i l).2 ≠ .fatal) (rb : List (Smp C)) (i : Nat) (ps : List (List (Smp C))) :
    ∀ j, (packW D size pre gen f).Trans ⟨rb, ps.flatten, ps.map (·.length), i, j, .drain⟩ []
      ((outP gen f j ps).map .item) ⟨rb, [], [], i, j + ps.length, .drain⟩ := by
  induction ps with
  | nil => intro j; exact .nil
  | cons p ps ih =>
    intro j
    refine .tau (W := packW D size pre gen f) (x' := ⟨rb, (p :: ps).flatten, (p :: ps).map (·.length), i, j, .final true⟩)
      (by simp [packW]) ?_
    have h1 := pack_final_trans (D := D) (size := size) (pre := pre) (gen := gen) hf true rb p ps.flatten
      (ps.map (·.length)) i j
    have h2 := h1.append (ih (j + 1))
    have e1 := outP_append (gen := gen) (f := f) j [p] ps
    simp only [List.singleton_append, List.length_singleton] at e1
    rw [List.nil_append, ← List.map_append, ← e1,
      show j + 1 + ps.length = j + (p :: ps).length by simp; omega] at h2
    exact h2

theorem pack_main_trans (hf : ∀ i l, (f i l).2 ≠ .fatal) (rb : List (Smp C)) (i : Nat) (ps : List (List (Smp C))) :
    ∀ j r, (packW D size pre gen f).Trans ⟨rb, ps.flatten, ps.map (·.length), i, j, .check r⟩ []
      ((outP gen f j ps).map .item) ⟨rb, [], [], i, j + ps.length, .check (if ps = [] then r else 0)⟩ := by
  induction ps with
  | nil => intro j r; exact .nil
  | cons p ps ih =>
    intro j r
    refine .tau (W := packW D size pre gen f) (x' := ⟨rb, (p :: ps).flatten, (p :: ps).map (·.length), i, j, .final false⟩)
      (by simp [packW]) ?_
    have h1 := pack_final_trans (D := D) (size := size) (pre := pre) (gen := gen) hf false rb p ps.flatten
      (ps.map (·.length)) i j
    have h2 := h1.append (ih (j + 1) 0)
    have e1 := outP_append (gen := gen) (f := f) j [p] ps
    simp only [List.singleton_append, List.length_singleton] at e1
    rw [List.nil_append, ← List.map_append, ← e1,
      show j + 1 + ps.length = j + (p :: ps).length by simp; omega] at h2
    simpa using h2

/-- Of any 10 full buffers in a row, one gives a pack. -/
def PacksOften (size : Nat) (p : Nat → List (Smp C) → List (List (Smp C))) : Prop :=
  ∀ i (cs : List (List (Smp C))), cs.length = 10 → (∀ c ∈ cs, c.length = size) → packsOf p i cs ≠ []

theorem PacksOften.of_always {p : Nat → List (Smp C) → List (List (Smp C))} (h : ∀ i l, l.length = size → p i l ≠ []) : PacksOften size p := by
  intro i cs hc hs e
  match cs with
  | [] => cases hc
  | c :: cs =>
    have e0 : packsOf p i (c :: cs) = p i c ++ packsOf p (i + 1) cs := by simp [packsOf]
    rw [e0] at e
    exact h i c (hs c (by simp)) (List.append_eq_nil_iff.1 e).1

theorem pack_loop_trans (hf : ∀ i l, (f i l).2 ≠ .fatal) {p : Nat → List (Smp C) → List (List (Smp C))}
    (hp : ∀ i l, pre i l = some (p i l)) (hne : PacksOften size p) (xs : List (Smp C)) :
    ∀ (i j : Nat) (prev : List (List (Smp C))) (cur : List (Smp C)), cur.length < size → prev.length < 10 → (∀ c ∈ prev, c.length = size) →
      packsOf p i prev = [] →
    ∃ chunks rest r, cur ++ xs = chunks.flatten ++ rest ∧ (∀ c ∈ chunks, c.length = size) ∧ rest.length < size ∧
      (packW D size pre gen f).Trans ⟨cur, [], [], i + prev.length, j, .fill prev.length⟩ (xs.map .item)
        ((outP gen f j (packsOf p (i + prev.length) chunks)).map .item)
        ⟨rest, [], [], i + prev.length + chunks.length, j + (packsOf p (i + prev.length) chunks).length, .fill r⟩ := by
  induction xs with
  | nil =>
    intro i j prev cur hc _ _ _
    exact ⟨[], cur, _, by simp, by simp, hc, .nil⟩
  | cons a xs ih =>
    intro i j prev cur hc hpl hpf hpe
    have hact : (packW D size pre gen f).act ⟨cur, [], [], i + prev.length, j, .fill prev.length⟩ =
        .pull () (fun a => ⟨cur ++ [a], [], [], i + prev.length, j, .fill prev.length⟩) ⟨cur, [], [], i + prev.length, j, .ended⟩ := by
      simp only [packW, List.length_nil, Nat.add_zero, hc, if_true]
    by_cases hfull : cur.length + 1 = size
    · have hlen : (cur ++ [a]).length = size := by simp [hfull]
      have hround : ¬ (10 < prev.length + 1) := by omega
      have hstep : (packW D size pre gen f).Trans ⟨cur ++ [a], [], [], i + prev.length, j, .fill prev.length⟩ []
          ((outP gen f j (p (i + prev.length) (cur ++ [a]))).map .item)
          ⟨[], [], [], i + prev.length + 1, j + (p (i + prev.length) (cur ++ [a])).length,
            .fill (if p (i + prev.length) (cur ++ [a]) = [] then prev.length + 1 else 0)⟩ := by
        refine .tau (W := packW D size pre gen f)
          (x' := ⟨[], (p (i + prev.length) (cur ++ [a])).flatten, (p (i + prev.length) (cur ++ [a])).map (·.length), i + prev.length + 1, j,
            .check (prev.length + 1)⟩) ?_ ?_
        · simp only [packW, prePack, hlen, hp, hround]
          simp
        have h5 := pack_main_trans (D := D) (size := size) (pre := pre) (gen := gen) hf [] (i + prev.length + 1) (p (i + prev.length) (cur ++ [a])) j
          (prev.length + 1)
        have h6 : ∀ r i j, (packW D size pre gen f).Trans ⟨[], [], [], i, j, .check r⟩ [] [] ⟨[], [], [], i, j, .fill r⟩ :=
          fun r i j => .tau (W := packW D size pre gen f) (by rfl) .nil
        have h7 := h5.append (h6 _ _ _)
        simpa using h7
      have e0 : ∀ chunks, packsOf p (i + prev.length) ((cur ++ [a]) :: chunks) = p (i + prev.length) (cur ++ [a]) ++ packsOf p (i + prev.length + 1) chunks :=
        fun chunks => by simpa [packsOf] using packsOf_append p (i + prev.length) [cur ++ [a]] chunks
      have hrest : ∃ chunks rest r, [] ++ xs = chunks.flatten ++ rest ∧ (∀ c ∈ chunks, c.length = size) ∧ rest.length < size ∧
          (packW D size pre gen f).Trans ⟨[], [], [], i + prev.length + 1, j + (p (i + prev.length) (cur ++ [a])).length,
              .fill (if p (i + prev.length) (cur ++ [a]) = [] then prev.length + 1 else 0)⟩ (xs.map .item)
            ((outP gen f (j + (p (i + prev.length) (cur ++ [a])).length) (packsOf p (i + prev.length + 1) chunks)).map .item)
            ⟨rest, [], [], i + prev.length + 1 + chunks.length, j + (p (i + prev.length) (cur ++ [a])).length +
              (packsOf p (i + prev.length + 1) chunks).length, .fill r⟩ := by
        by_cases hemp : p (i + prev.length) (cur ++ [a]) = []
        · have hpe' : packsOf p i (prev ++ [cur ++ [a]]) = [] := by
            rw [packsOf_append, hpe]
            simp [packsOf, hemp]
          have hpf' : ∀ c ∈ prev ++ [cur ++ [a]], c.length = size := by
            intro c hc'
            rcases List.mem_append.1 hc' with hc' | hc'
            · exact hpf c hc'
            · rw [List.mem_singleton.1 hc']; exact hlen
          have hl : prev.length + 1 < 10 := by
            rcases Nat.lt_or_ge (prev.length + 1) 10 with h | h
            · exact h
            · exact absurd hpe' (hne i _ (by simp; omega) hpf')
          have := ih i (j + (p (i + prev.length) (cur ++ [a])).length) (prev ++ [cur ++ [a]]) [] (by simp; omega) (by simpa using hl) hpf' hpe'
          simpa [hemp, Nat.add_assoc] using this
        · rw [if_neg hemp]
          exact ih (i + prev.length + 1) (j + (p (i + prev.length) (cur ++ [a])).length) [] [] (by simp; omega) (by simp) (by simp) (by simp [packsOf])
      obtain ⟨chunks, rest, r, h1, h2, h3, h4⟩ := hrest
      refine ⟨(cur ++ [a]) :: chunks, rest, r, by simpa using h1, ?_, h3, ?_⟩
      · intro c hc'
        rcases List.mem_cons.1 hc' with rfl | hc'
        · exact hlen
        · exact h2 c hc'
      · refine .pullItem (W := packW D size pre gen f) hact ?_
        have h7 := hstep.append h4
        rw [List.nil_append, ← List.map_append, ← outP_append, ← e0, Nat.add_assoc j,
          ← List.length_append, ← e0,
          show i + prev.length + 1 + chunks.length = i + prev.length + ((cur ++ [a]) :: chunks).length by simp; omega] at h7
        exact h7
    · obtain ⟨chunks, rest, r, h1, h2, h3, h4⟩ := ih i j prev (cur ++ [a]) (by simp; omega) hpl hpf hpe
      exact ⟨chunks, rest, r, by simpa using h1, h2, h3, .pullItem (W := packW D size pre gen f) hact h4⟩

/-- Filling the buffer -/
theorem pack_fill_trans (r i j : Nat) (xs : List (Smp C)) : ∀ cur : List (Smp C), cur.length + xs.length ≤ size →
    (packW D size pre gen f).Trans ⟨cur, [], [], i, j, .fill r⟩ (xs.map .item) [] ⟨cur ++ xs, [], [], i, j, .fill r⟩ := by
  induction xs with
  | nil => intro cur _; simpa using Wrapper.Trans.nil
  | cons a xs ih =>
    intro cur h
    have hc : cur.length < size := by simp at h; omega
    refine .pullItem (W := packW D size pre gen f) (f := fun a => ⟨cur ++ [a], [], [], i, j, .fill r⟩) (g := ⟨cur, [], [], i, j, .ended⟩) ?_ ?_
    · simp only [packW, List.length_nil, Nat.add_zero, hc, if_true]
    · simpa using ih (cur ++ [a]) (by simp at h ⊢; omega)

/-- Full buffers that give no pack -/
theorem pack_empty_trans (hsize : 0 < size) {p : Nat → List (Smp C) → List (List (Smp C))} (hp : ∀ i l, pre i l = some (p i l)) (j : Nat) (cs : List (List (Smp C))) :
    ∀ r i, r + cs.length ≤ 10 → (∀ c ∈ cs, c.length = size) → packsOf p i cs = [] →
    (packW D size pre gen f).Trans ⟨[], [], [], i, j, .fill r⟩ (cs.flatten.map .item) [] ⟨[], [], [], i + cs.length, j, .fill (r + cs.length)⟩ := by
  induction cs with
  | nil => intro r i _ _ _; exact .nil
  | cons c cs ih =>
    intro r i hr hs he
    have e0 : packsOf p i (c :: cs) = p i c ++ packsOf p (i + 1) cs := by simp [packsOf]
    rw [e0] at he
    obtain ⟨he1, he2⟩ := List.append_eq_nil_iff.1 he
    have hc : c.length = size := hs c (by simp)
    have hcn : c ≠ [] := by intro e; rw [e] at hc; simp at hc; omega
    have h1 := pack_fill_trans (D := D) (size := size) (pre := pre) (gen := gen) (f := f) r i j c [] (by simp [hc])
    have hround : ¬ (10 < r + 1) := by simp at hr; omega
    have h2 : (packW D size pre gen f).Trans ⟨[] ++ c, [], [], i, j, .fill r⟩ [] [] ⟨[], [], [], i + 1, j, .fill (r + 1)⟩ := by
      refine .tau (W := packW D size pre gen f) (x' := ⟨[], [], [], i + 1, j, .check (r + 1)⟩) ?_ (.tau (W := packW D size pre gen f) (by rfl) .nil)
      simp only [packW, prePack, hc, hp, hround, List.nil_append, he1, hcn]
      simp
    have h3 := (h1.append h2).append (ih (r + 1) (i + 1) (by simp at hr ⊢; omega) (fun d hd => hs d (by simp [hd])) he2)
    simp only [List.append_nil, List.nil_append, ← List.map_append] at h3
    rw [List.flatten_cons, List.length_cons, show i + (cs.length + 1) = i + 1 + cs.length by omega, show r + (cs.length + 1) = r + 1 + cs.length by omega]
    exact h3

end Verif.Stream
