import Mathlib.Data.List.Forall2
import Verif.Mix.Model
import Verif.Task.PadProps
import Verif.Wrap.BatchItems
import Verif.Wrap.BlendProps
import Verif.Pipeline.Refuse
import Verif.Pipeline.Guard

/-!
# C82: mixed batches
-/

namespace Verif.Mix

open Verif.Task Verif.Stream

variable {T α O Ty : Type}

/-! ## Specification -/

/-- `r` is the concatenation of the tensors of `batch` along the first dimension, padded with zeros in the other dimensions: as many rows as all the
tensors together, each further size is the largest one, each value of each tensor is found unchanged in the row after the rows of the tensors in
front of it, and everything else is zero. -/
structure Concated (P : DTypes T α) (batch : List (Tensor T α)) (r : Tensor T α) : Prop where
  count : r.shape.head? = some (batch.map rows).sum
  large : ∀ t ∈ batch, ∀ d n m, t.shape[d + 1]? = some n → r.shape[d + 1]? = some m → n ≤ m
  tight : ∀ d m, r.shape[d + 1]? = some m → ∃ t ∈ batch, t.shape[d + 1]? = some m
  dims : ∀ t ∈ batch, r.shape.length = t.shape.length
  value : ∀ pre t post i is, batch = pre ++ t :: post → InShape (i :: is) t.shape →
    InShape (((pre.map rows).sum + i) :: is) r.shape ∧ r.get (((pre.map rows).sum + i) :: is) = t.get (i :: is)
  pad : ∀ pre t post i is, batch = pre ++ t :: post → i < rows t → InShape (((pre.map rows).sum + i) :: is) r.shape →
    ¬ InShape (i :: is) t.shape → r.get (((pre.map rows).sum + i) :: is) = P.zero

/-! ## Helpers -/

theorem concatGet_at (P : DTypes T α) (dt : T) (pre : List (Tensor T α)) (t : Tensor T α) (post : List (Tensor T α)) (i : Nat) (is : List Nat)
    (hi : i < rows t) : concatGet P dt (pre ++ t :: post) (((pre.map rows).sum + i) :: is) =
      if InShape is t.shape.tail then P.conv dt (t.get (i :: is)) else P.zero := by
  induction pre with
  | nil => simp [concatGet, hi]
  | cons b pre ih =>
    rw [List.cons_append, concatGet, if_neg (by simp; omega)]
    rw [← ih]
    congr 2
    simp only [List.map_cons, List.sum_cons]
    omega

theorem inShape_cons {i : Nat} {is s : List Nat} : InShape (i :: is) s ↔ s ≠ [] ∧ i < s.headD 0 ∧ InShape is s.tail := by
  cases s with
  | nil => simp [InShape]
  | cons n s => simp [InShape]

/-! ## Theorems -/

/-- **C82**, partial: concatenating tensors succeeds exactly if there is one and all have the same number of dimensions, at least one. -/
theorem C82_concat_succeeds (P : DTypes T α) (batch : List (Tensor T α)) :
    (concatPad P batch).isSome ↔ batch ≠ [] ∧ (∀ t ∈ batch, t.shape ≠ []) ∧ ∀ s ∈ batch, ∀ t ∈ batch, s.shape.length = t.shape.length := by
  cases batch with
  | nil => simp [concatPad]
  | cons b l =>
    simp only [concatPad]
    constructor
    · intro h
      split at h
      · rename_i hall
        obtain ⟨hb, hall⟩ := hall
        have h1 : ∀ c ∈ b :: l, c.shape.length = b.shape.length := by
          intro c hc
          rcases List.mem_cons.1 hc with rfl | hc
          · rfl
          · simpa using List.all_eq_true.1 hall c hc
        refine ⟨by simp, fun t ht e => ?_, ?_⟩
        · have := h1 t ht
          rw [e] at this
          exact hb (List.length_eq_zero_iff.1 this.symm)
        · intro s hs t ht
          rw [h1 s hs, h1 t ht]
      · simp at h
    · rintro ⟨-, h0, h⟩
      rw [if_pos]
      · rfl
      · refine ⟨h0 b (by simp), ?_⟩
        rw [List.all_eq_true]
        intro c hc
        simpa using h c (by simp [hc]) b (by simp)

/-- **C82**, partial: the result of concatenating tensors is their padded concatenation, provided the values are representable in the type of the first
tensor. Missing: tensors of different types (`C82_violated_dtype`). -/
theorem C82_concat_partial (P : DTypes T α) (b : Tensor T α) (l : List (Tensor T α))
    (hconv : ∀ t ∈ b :: l, ∀ is, InShape is t.shape → P.conv b.dtype (t.get is) = t.get is) (r : Tensor T α)
    (h : concatPad P (b :: l) = some r) : Concated P (b :: l) r := by
  have hs := (C82_concat_succeeds P (b :: l)).1 (by rw [h]; rfl)
  obtain ⟨-, h0, hl⟩ := hs
  simp only [concatPad] at h
  split at h
  · injection h with h
    subst h
    -- the sizes, from the lemmas for stacking
    have hdim : ∀ c ∈ l.map (fun c => (⟨c.dtype, c.shape.tail, c.get⟩ : Tensor T α)), c.shape.length = b.shape.tail.length := by
      intro c hc
      obtain ⟨c, hc', rfl⟩ := List.mem_map.1 hc
      have := hl c (by simp [hc']) b (by simp)
      simp [this]
    have hfold : maxTail b l = (l.map (fun c => (⟨c.dtype, c.shape.tail, c.get⟩ : Tensor T α))).foldl (fun m b => maxShape m b.shape) b.shape.tail := by
      rw [List.foldl_map]; rfl
    have hlen : (maxTail b l).length = b.shape.tail.length := by rw [hfold]; exact maxSize_length _ _ hdim
    have hge : ∀ (d m : Nat), (maxTail b l)[d]? = some m → (∀ t ∈ b :: l, ∀ n : Nat, t.shape.tail[d]? = some n → n ≤ m) ∧
        ∃ t ∈ b :: l, t.shape.tail[d]? = some m := by
      intro d m hm
      rw [hfold] at hm
      obtain ⟨h1, h2, h3⟩ := maxSize_ge _ _ hdim d m hm
      refine ⟨?_, ?_⟩
      · intro t ht n hn
        rcases List.mem_cons.1 ht with rfl | ht
        · exact h1 n hn
        · exact h2 _ (List.mem_map_of_mem ht) n hn
      · rcases h3 with h3 | ⟨c, hc, h3⟩
        · exact ⟨b, by simp, h3⟩
        · obtain ⟨c, hc', rfl⟩ := List.mem_map.1 hc
          exact ⟨c, by simp [hc'], h3⟩
    have htail : ∀ (t : Tensor T α) (d : Nat), t.shape[d + 1]? = t.shape.tail[d]? := by
      intro t d
      cases t.shape <;> simp
    refine ⟨by simp, ?_, ?_, ?_, ?_, ?_⟩
    · intro t ht d n m hn hm
      exact (hge d m (by simpa using hm)).1 t ht n (by rw [← htail]; exact hn)
    · intro d m hm
      obtain ⟨t, ht, h3⟩ := (hge d m (by simpa using hm)).2
      exact ⟨t, ht, by rw [htail]; exact h3⟩
    · intro t ht
      have h1 := hl t ht b (by simp)
      have h2 := h0 b (by simp)
      have := List.length_pos_of_ne_nil h2
      simp only [List.length_cons, hlen, List.length_tail]
      omega
    · intro pre t post i is e hi
      rw [e] at h0 hl
      obtain ⟨-, h1, h2⟩ := inShape_cons.1 hi
      have ht : t ∈ b :: l := by rw [e]; simp
      refine ⟨⟨?_, ?_⟩, ?_⟩
      · rw [e]
        simp only [List.map_append, List.map_cons, List.sum_append, List.sum_cons]
        have : i < rows t := h1
        omega
      · refine inShape_mono ?_ ?_ h2
        · rw [hlen]
          have hb : b ∈ pre ++ t :: post := by rw [← e]; simp
          have := hl t (by simp) b hb
          simp [this]
        · intro d n m hn hm
          exact (hge d m hm).1 t ht n hn
      · show concatGet P b.dtype (b :: l) _ = _
        rw [e, concatGet_at P _ _ _ _ _ _ h1, if_pos h2, hconv t ht _ hi]
    · intro pre t post i is e hi _ hnot
      show concatGet P b.dtype (b :: l) _ = _
      have hne : t.shape ≠ [] := h0 t (by rw [e]; simp)
      rw [e, concatGet_at P _ _ _ _ _ _ hi, if_neg]
      intro hc
      exact hnot (inShape_cons.2 ⟨hne, hi, hc⟩)
  · cases h

/-- A position in a concatenation -/
theorem flatten_pos {β : Type} (bss : List (List β)) (i : Nat) (x : β) (h : bss.flatten[i]? = some x) :
    ∃ pre b post j, bss = pre ++ b :: post ∧ i = pre.flatten.length + j ∧ b[j]? = some x := by
  induction bss generalizing i with
  | nil => simp at h
  | cons b bss ih =>
    by_cases hi : i < b.length
    · refine ⟨[], b, bss, i, rfl, by simp, ?_⟩
      rw [List.flatten_cons, List.getElem?_append_left hi] at h
      exact h
    · rw [List.flatten_cons, List.getElem?_append_right (by omega)] at h
      obtain ⟨pre, c, post, j, rfl, h2, h3⟩ := ih _ h
      refine ⟨b :: pre, c, post, j, rfl, ?_, h3⟩
      simp only [List.flatten_cons, List.length_append]
      omega

theorem forall₂_split {β γ : Type} {Q : β → γ → Prop} {pre post : List β} {b : β} {l : List γ} (h : List.Forall₂ Q (pre ++ b :: post) l) :
    ∃ pre' c post', l = pre' ++ c :: post' ∧ List.Forall₂ Q pre pre' ∧ Q b c := by
  induction pre generalizing l with
  | nil => cases h with | cons h _ => exact ⟨[], _, _, rfl, .nil, h⟩
  | cons a pre ih =>
    cases h with
    | cons h1 h2 =>
      obtain ⟨pre', c, post', rfl, h3, h4⟩ := ih h2
      exact ⟨_ :: pre', c, post', rfl, .cons h1 h3, h4⟩

theorem rows_sum (P : DTypes T α) {bss : List (List (Tensor T α))} {ts : List (Tensor T α)} (h : List.Forall₂ (Padded P) bss ts) :
    (ts.map rows).sum = bss.flatten.length := by
  induction h with
  | nil => rfl
  | cons h _ ih =>
    have := h.count
    simp only [List.map_cons, List.sum_cons, List.flatten_cons, List.length_append, ih]
    congr 1
    simp [rows, List.headD_eq_head?_getD, this]

/-- **C82.** Mixing batches is the same as batching all the samples at once: if each of the tensors is the padded batch of some samples, their padded
concatenation is the padded batch of all these samples, in order. -/
theorem C82_as_if_batched (P : DTypes T α) (bss : List (List (Tensor T α))) (ts : List (Tensor T α)) (h : List.Forall₂ (Padded P) bss ts)
    (r : Tensor T α) (hr : Concated P ts r) : Padded P bss.flatten r := by
  have hmem : ∀ t ∈ bss.flatten, ∃ b u, t ∈ b ∧ u ∈ ts ∧ Padded P b u := by
    intro t ht
    obtain ⟨b, hb, htb⟩ := List.mem_flatten.1 ht
    obtain ⟨pre, post, rfl⟩ := List.append_of_mem hb
    obtain ⟨pre', c, post', rfl, -, hc⟩ := forall₂_split h
    exact ⟨b, c, htb, by simp, hc⟩
  have hmem' : ∀ u ∈ ts, ∃ b ∈ bss, Padded P b u := by
    intro u hu
    obtain ⟨pre, post, rfl⟩ := List.append_of_mem hu
    obtain ⟨pre', c, post', rfl, -, hc⟩ := forall₂_split h.flip
    exact ⟨c, by simp, hc⟩
  refine ⟨?_, ?_, ?_, ?_, ?_, ?_⟩
  · rw [hr.count, rows_sum P h]
  · intro t ht d n m hn hm
    obtain ⟨b, u, htb, hu, hp⟩ := hmem t ht
    have hlt : d + 1 < u.shape.length := by
      rw [hp.dims t htb]
      have := (List.getElem?_eq_some_iff.1 hn).1
      omega
    have e : u.shape[d + 1]? = some (u.shape[d + 1]) := List.getElem?_eq_getElem hlt
    exact Nat.le_trans (hp.large t htb d n _ hn e) (hr.large u hu d _ m e hm)
  · intro d m hm
    obtain ⟨u, hu, hum⟩ := hr.tight d m hm
    obtain ⟨b, hb, hp⟩ := hmem' u hu
    obtain ⟨t, ht, htm⟩ := hp.tight d m hum
    exact ⟨t, List.mem_flatten.2 ⟨b, hb, ht⟩, htm⟩
  · intro t ht
    obtain ⟨b, u, htb, hu, hp⟩ := hmem t ht
    rw [hr.dims u hu, hp.dims t htb]
  · intro i t is hi his
    obtain ⟨pre, b, post, j, rfl, rfl, hj⟩ := flatten_pos bss i t hi
    obtain ⟨pre', u, post', rfl, h1, h2⟩ := forall₂_split h
    obtain ⟨h3, h4⟩ := h2.value j t is hj his
    obtain ⟨h5, h6⟩ := hr.value pre' u post' j is rfl h3
    rw [rows_sum P h1] at h5 h6
    exact ⟨h5, h6.trans h4⟩
  · intro i t is hi hin hnot
    obtain ⟨pre, b, post, j, rfl, rfl, hj⟩ := flatten_pos bss i t hi
    obtain ⟨pre', u, post', rfl, h1, h2⟩ := forall₂_split h
    have hjb : j < rows u := by
      have := h2.count
      have hlt := (List.getElem?_eq_some_iff.1 hj).1
      simp [rows, List.headD_eq_head?_getD, this, hlt]
    by_cases hu : InShape (j :: is) u.shape
    · obtain ⟨-, h6⟩ := hr.value pre' u post' j is rfl hu
      rw [rows_sum P h1] at h6
      rw [h6]
      exact h2.pad j t is hj hu hnot
    · have := hr.pad pre' u post' j is rfl hjb (by rw [rows_sum P h1]; exact hin) hu
      rw [rows_sum P h1] at this
      exact this

/-- Two padded batches of two and one samples, mixed: the hypotheses of the theorems above are met. -/
example : ∃ t u r, padStack exTypes [exA, exB] = some t ∧ padStack exTypes [exA] = some u ∧ concatPad exTypes [t, u] = some r ∧
    r.shape = [3, 2, 3] ∧ Padded exTypes [exA, exB, exA] r := by
  have hA : ∀ is, exTypes.conv true (exA.get is) = exA.get is := fun is => rfl
  have hB : ∀ is, exTypes.conv true (exB.get is) = exB.get is := fun is => rfl
  refine ⟨_, _, _, rfl, rfl, rfl, rfl, ?_⟩
  refine C82_as_if_batched exTypes [[exA, exB], [exA]] _ (.cons (C49_padded_partial exTypes exA [exB] ?_ _ rfl)
    (.cons (C49_padded_partial exTypes exA [] ?_ _ rfl) .nil)) _ (C82_concat_partial exTypes _ _ ?_ _ rfl)
  · intro t ht is _
    simp only [List.mem_cons, List.not_mem_nil, or_false] at ht
    rcases ht with rfl | rfl <;> rfl
  · intro t ht is _
    simp only [List.mem_cons, List.not_mem_nil, or_false] at ht
    rcases ht with rfl; rfl
  · intro t ht is _
    rfl

/-- **C82 does not hold** for tensors of different types: the type of the first one is used, and 1.50 becomes 1. -/
theorem C82_violated_dtype : ∃ (batch : List (Tensor Bool Nat)) (r : Tensor Bool Nat),
    (∀ t ∈ batch, ∀ is, exTypes.conv t.dtype (t.get is) = t.get is) ∧
    concatPad exTypes batch = some r ∧ ¬ Concated exTypes batch r := by
  refine ⟨[⟨false, [1], fun _ => 200⟩, ⟨true, [1], fun _ => 150⟩], _, ?_, rfl, ?_⟩
  · intro t ht is
    simp only [List.mem_cons, List.not_mem_nil, or_false] at ht
    rcases ht with rfl | rfl <;> simp [exTypes]
  · intro h
    have := (h.value [⟨false, [1], fun _ => 200⟩] ⟨true, [1], fun _ => 150⟩ [] 0 [] rfl (by decide)).2
    exact absurd this (by decide)

/-! ## Structures -/

/-- **C82**, partial: if batches are mixed, then for every path of fields of the first batch that leads to a tensor, all the batches have a tensor there, and
the mixed batch has there the concatenation of these tensors. Missing: fields that are no tensors (`C82_violated_lists`). -/
theorem C82_fields_partial (P : DTypes T α) (path : List String) (v : Val T α O) (rest : List (Val T α O)) (b : BVal T α O)
    (h : genericConcat P v rest = some b) (t : Tensor T α) (ht : v.at path = some (.tensor t)) :
    ∃ ts r, collect (fun w => (w.at path).bind Val.asTensor) rest = some ts ∧ concatPad P (t :: ts) = some r ∧
      b.at path = some (.tensor r) :=
  (genericWith_leaves (concatPad P) path v rest b h).1 t ht

/-- **C82 does not hold** for fields with a list of one entry for each sample (such as the keys of the samples): the lists are not concatenated. In
the mixed batch the tensor has three rows, but the other field is a list with one entry for each batch. -/
theorem C82_violated_lists :
    ∃ (v w : Val Bool Nat (List String)) (b : BVal Bool Nat (List String)) (r : Tensor Bool Nat),
      v.at ["keys"] = some (.other ["a", "b"]) ∧ w.at ["keys"] = some (.other ["c"]) ∧
      (∃ t, v.at ["img"] = some (.tensor t) ∧ rows t = 2) ∧ (∃ t, w.at ["img"] = some (.tensor t) ∧ rows t = 1) ∧
      genericConcat exTypes v [w] = some b ∧ b.at ["img"] = some (.tensor r) ∧ rows r = 3 ∧
      b.at ["keys"] = some (.list [.other ["a", "b"], .other ["c"]]) :=
  ⟨.struct (.cons "keys" (.other ["a", "b"]) (.cons "img" (.tensor ⟨true, [2], fun _ => 110⟩) .nil)),
    .struct (.cons "keys" (.other ["c"]) (.cons "img" (.tensor ⟨true, [1], fun _ => 110⟩) .nil)), _, _, rfl, rfl,
    ⟨_, rfl, rfl⟩, ⟨_, rfl, rfl⟩, rfl, rfl, rfl, rfl⟩

/-! ## The dataset -/

variable {σ κ C C' ρ : Type}

/-- **C82.** What a mixed dataset delivers, at any point: there is a sequence of draws from the parts and their consecutive samples, such that the delivered
batches are the results (if any) of the batch function for consecutive runs of exactly `batch_size` samples; no drawn sample is missing. -/
theorem C82_mixed (D : Nat → Dataset σ (Smp C) κ) (n : Nat) (R : Rng ρ) (bs : Nat) (hbs : 0 < bs) (f : BatchFn C C')
    (ys : List (Smp C')) (q : ((Nat → σ) × BlendX ρ C) × BatchX C) (h : (mixD D n R bs f).Items (mixD D n R bs f).init ys q) :
    ∃ (bss : List (List (Smp C))) (zs : List (Nat × Smp C)),
      (∀ b ∈ bss, b.length = bs) ∧
      ys.map (·.content) = (bss.zipIdx 0).filterMap (fun p => (f p.2 p.1).ok?) ∧
      bss.flatten.map (·.content) = zs.map (·.2.content) ∧
      zs.map (·.1) = blendDraws R (blendActive D n).length R.seed zs.length ∧
      ∀ k i, (blendActive D n)[k]? = some i →
        ∃ es, (D i).Run (D i).init es (q.1.1 i) ∧ itemsOf es = (zs.filter (·.1 = k)).map (·.2) := by
  obtain ⟨bss, h1, h2, h3⟩ := batch_items_inv hbs (C15_blend_never_ends D n R false) (Dataset.withRestore_run.1 h)
  obtain ⟨zs, h4, h5, h6, -⟩ := C15_blend_faithful D n R (fun i => (D i).init) R.seed bss.flatten q.1 .init h1
  refine ⟨bss, zs, h2, h3, ?_, ?_, h6⟩
  · rw [h4, List.map_map]; rfl
  · rw [h5, h4, List.length_map]

/-- **C82.** A mixed dataset never ends. -/
theorem C82_never_ends (D : Nat → Dataset σ (Smp C) κ) (n : Nat) (R : Rng ρ) (bs : Nat) (f : BatchFn C C') : (mixD D n R bs f).NeverEnds :=
  Dataset.withRestore_neverEnds <| batch_neverEnds _ _ _ _ (C15_blend_never_ends D n R false)

/-- **C82.** A mixed dataset resumes exactly, if its parts do. -/
theorem C82_resumes (D : Nat → Dataset σ (Smp C) κ) (n : Nat) (R : Rng ρ) (bs : Nat) (f : BatchFn C C') (hD : ∀ i, (D i).ResumesExactly) :
    (mixD D n R bs f).ResumesExactly :=
  Dataset.withRestore_resumes <| C51_batch_resumes_endless _ _ _ _ (C16_blend_resumes D n R hD) (C15_blend_never_ends D n R false)

/-- Batches of a mixed dataset cannot be restored from their keys, also if the batch function is stateless. -/
theorem C82_violated_restore (D : Nat → Dataset σ (Smp C) κ) (n : Nat) (R : Rng ρ) (bs : Nat) (f : BatchFn C C') (k : List Key) :
    (mixD D n R bs f).restoreSample k = none := rfl

/-- **C82 does not hold** for batches of different types: the documentation of `homogeneous_concat_mix` says that a list of the batches is returned, but
all of them are dropped. -/
theorem C82_violated_types (P : DTypes T α) (i : Nat) (a b : Smp (Bool × Val T α O)) (ha : a.content.1 = true) (hb : b.content.1 = false) :
    (concatMix P i [a, b]).ok? = none := by
  simp [concatMix, ha, hb, BatchRes.ok?]

/-- Batches of the same type are mixed by concatenation. -/
theorem C82_homogeneous [DecidableEq Ty] (P : DTypes T α) (i : Nat) (a : Smp (Ty × Val T α O)) (l : List (Smp (Ty × Val T α O)))
    (h : ∀ b ∈ l, b.content.1 = a.content.1) : (concatMix P i (a :: l)).ok? = genericConcat P a.content.2 (l.map (·.content.2)) := by
  have : (l.map (·.content)).all (fun s => a.content.1 == s.1) = true := by
    rw [List.all_eq_true]
    intro s hs
    obtain ⟨b, hb, rfl⟩ := List.mem_map.1 hs
    simp [h b hb]
  simp only [concatMix, List.map_cons, this, if_true, List.map_map]
  show BatchRes.ok? (match genericConcat P a.content.2 (l.map (·.content.2)) with | some b => .ok b | none => .skip) = _
  cases genericConcat P a.content.2 (l.map (·.content.2)) <;> rfl

/-- Two parts, mixed in batches of three. -/
example : ((mixD exParts 3 lastRng 3 sumBatch).eval 90 (mixD exParts 3 lastRng 3 sumBatch).init).take 2 =
    [.item ⟨10, [.str "BatchDataset", .num 0, .tup [.str "BlendDataset", .num 0, .num 0], .tup [.str "BlendDataset", .num 1, .num 0],
        .tup [.str "BlendDataset", .num 0, .num 1]]⟩,
      .item ⟨15, [.str "BatchDataset", .num 1, .tup [.str "BlendDataset", .num 1, .num 0], .tup [.str "BlendDataset", .num 0, .num 0],
        .tup [.str "BlendDataset", .num 1, .num 0]]⟩] := by decide

end Verif.Mix
