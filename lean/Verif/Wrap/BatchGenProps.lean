import Verif.Wrap.BatchGenModel
import Verif.Wrap.MapGenProps
import Verif.Wrap.BatchProps

/-! # C84: batching with a generator function -/

namespace Verif.Stream

variable {σ κ C C' : Type} {D : Dataset σ (Smp C) κ} {bs : Nat} {dl : Bool} {f : FinalFn C C'}

theorem batchGen_noReset : (batchGenW D bs dl f).NoReset := by
  rintro ⟨n, o, b, ks, c⟩ x' h
  cases c with
  | start =>
    cases o with
    | none => simp only [batchGenW] at h; cases h
    | some o =>
      simp only [batchGenW] at h
      split at h <;> cases h
  | loop => simp only [batchGenW] at h; cases h
  | flush last => simp only [batchGenW] at h; cases h
  | group res last k j rest e =>
    cases rest with
    | cons c cs => simp only [batchGenW] at h; cases h
    | nil =>
      cases e with
      | done => simp only [batchGenW] at h; cases h
      | skip => simp only [batchGenW] at h; split at h <;> cases h
      | fatal => simp only [batchGenW] at h; cases h
  | done => simp only [batchGenW] at h; cases h

/-! ## What is delivered -/

/-- The keys left after a batch. -/
def keysBGen (f : FinalFn C C') (i : Nat) (ks : List (List Key)) (b : List (Smp C)) : List (List Key) :=
  if (f i b).2 = .skip then ks ++ b.map (·.key) else []

/-- The offset left after a batch. -/
def offBGen (f : FinalFn C C') (i : Nat) (b : List (Smp C)) : Option Nat := if (f i b).2 = .skip then some (f i b).1.length else none

/-- The delivered samples, with stale keys `ks`. -/
def outBGen (f : FinalFn C C') : Nat → List (List Key) → List (List (Smp C)) → List (Smp C')
  | _, _, [] => []
  | i, ks, b :: bss => ((f i b).1.mapIdx fun j c => ⟨c, batchGenKey i j (ks ++ b.map (·.key))⟩) ++ outBGen f (i + 1) (keysBGen f i ks b) bss

def staleBGen (f : FinalFn C C') : Nat → List (List Key) → List (List (Smp C)) → List (List Key)
  | _, ks, [] => ks
  | i, ks, b :: bss => staleBGen f (i + 1) (keysBGen f i ks b) bss

def leftBGen (f : FinalFn C C') : Nat → Option Nat → List (List (Smp C)) → Option Nat
  | _, o, [] => o
  | i, _, b :: bss => leftBGen f (i + 1) (offBGen f i b) bss

theorem outBGen_append (i : Nat) (ks : List (List Key)) (bss css : List (List (Smp C))) :
    outBGen f i ks (bss ++ css) = outBGen f i ks bss ++ outBGen f (i + bss.length) (staleBGen f i ks bss) css := by
  induction bss generalizing i ks with
  | nil => simp [outBGen, staleBGen]
  | cons b bss ih => simp [outBGen, staleBGen, ih, Nat.add_assoc, Nat.add_comm 1]

theorem staleBGen_append (i : Nat) (ks : List (List Key)) (bss css : List (List (Smp C))) :
    staleBGen f i ks (bss ++ css) = staleBGen f (i + bss.length) (staleBGen f i ks bss) css := by
  induction bss generalizing i ks with
  | nil => simp [staleBGen]
  | cons b bss ih => simp [staleBGen, ih, Nat.add_assoc, Nat.add_comm 1]

theorem leftBGen_append (i : Nat) (o : Option Nat) (bss css : List (List (Smp C))) :
    leftBGen f i o (bss ++ css) = leftBGen f (i + bss.length) (leftBGen f i o bss) css := by
  induction bss generalizing i o with
  | nil => simp [leftBGen]
  | cons b bss ih => simp [leftBGen, ih, Nat.add_assoc, Nat.add_comm 1]

theorem outBGen_contents (i : Nat) (ks : List (List Key)) (bss : List (List (Smp C))) :
    (outBGen f i ks bss).map (·.content) = (bss.zipIdx i).flatMap fun p => (f p.2 p.1).1 := by
  induction bss generalizing i ks with
  | nil => rfl
  | cons b bss ih =>
    simp only [outBGen, List.map_append, List.zipIdx_cons, List.flatMap_cons, ih, List.append_cancel_right_eq]
    apply List.ext_getElem? ; intro n
    simp [Function.comp_def]

theorem outBGen_noskip (hs : ∀ i b, (f i b).2 ≠ .skip) (i : Nat) (bss : List (List (Smp C))) :
    outBGen f i [] bss = (bss.zipIdx i).flatMap fun p => (f p.2 p.1).1.mapIdx fun j c => ⟨c, batchGenKey p.2 j (p.1.map (·.key))⟩ := by
  induction bss generalizing i with
  | nil => rfl
  | cons b bss ih => simp [outBGen, keysBGen, hs, List.zipIdx_cons, ih]

private theorem mapIdx_shift' {α β : Type} (g : Nat → α → β) (c : α) (cs : List α) (j : Nat) :
    (c :: cs).mapIdx (fun i => g (j + i)) = g j c :: cs.mapIdx fun i => g (j + 1 + i) := by
  rw [List.mapIdx_cons]
  simp only [Nat.add_zero, Nat.add_comm 1, Nat.add_assoc]

theorem bgroup_trans (res last : Bool) (n k : Nat) (b : List (Smp C)) (ks : List (List Key)) (e : FinalEnd) (rest : List C') : ∀ (j : Nat),
    (batchGenW D bs dl f).Trans ⟨n, some j, b, ks, .group res last k j rest e⟩ []
      ((rest.mapIdx fun i c => (⟨c, batchGenKey k (j + i) ks⟩ : Smp C')).map .item)
      ⟨n, some (j + rest.length), b, ks, .group res last k (j + rest.length) [] e⟩ := by
  induction rest with
  | nil => intro j; exact .nil
  | cons c cs ih =>
    intro j
    rw [mapIdx_shift' (fun i c => (⟨c, batchGenKey k i ks⟩ : Smp C'))]
    refine .emit (W := batchGenW D bs dl f) (x := ⟨n, some j, b, ks, .group res last k j (c :: cs) e⟩)
      (x' := ⟨n, some (j + 1), b, ks, .group res last k (j + 1) cs e⟩) rfl ?_
    have := ih (j + 1)
    rw [Nat.add_right_comm, Nat.add_assoc] at this
    exact this

theorem bflush_trans (hf : ∀ i b, (f i b).2 ≠ .fatal) (i : Nat) (o : Option Nat) (b : List (Smp C)) (ks : List (List Key)) (last : Bool) :
    (batchGenW D bs dl f).Trans ⟨i, o, b, ks ++ b.map (·.key), .flush last⟩ [] ((outBGen f i ks [b]).map .item)
      ⟨i + 1, offBGen f i b, [], keysBGen f i ks b, if last then .done else .loop⟩ := by
  have h1 : (batchGenW D bs dl f).Trans ⟨i, o, b, ks ++ b.map (·.key), .flush last⟩ [] []
      ⟨i + 1, some 0, b, ks ++ b.map (·.key), .group false last i 0 (f i b).1 (f i b).2⟩ :=
    .tau (W := batchGenW D bs dl f) rfl .nil
  have h2 := bgroup_trans (D := D) (bs := bs) (dl := dl) (f := f) false last (i + 1) i b (ks ++ b.map (·.key)) (f i b).2 (f i b).1 0
  have h3 : (batchGenW D bs dl f).Trans
      ⟨i + 1, some (0 + (f i b).1.length), b, ks ++ b.map (·.key), .group false last i (0 + (f i b).1.length) [] (f i b).2⟩ [] []
      ⟨i + 1, offBGen f i b, [], keysBGen f i ks b, if last then .done else .loop⟩ := by
    rw [Nat.zero_add]
    cases he : (f i b).2 with
    | done => exact .tau (W := batchGenW D bs dl f) (by simp [batchGenW, offBGen, keysBGen, he]) .nil
    | skip => exact .tau (W := batchGenW D bs dl f) (by simp [batchGenW, offBGen, keysBGen, he]) .nil
    | fatal => exact absurd he (hf i b)
  have h4 := (h1.append h2).append h3
  simpa [outBGen] using h4

theorem bloop_trans (hf : ∀ i b, (f i b).2 ≠ .fatal) (xs : List (Smp C)) :
    ∀ (i : Nat) (o : Option Nat) (cur : List (Smp C)) (ks : List (List Key)), cur.length < bs →
    ∃ bss rest, cur ++ xs = bss.flatten ++ rest ∧ (∀ b ∈ bss, b.length = bs) ∧ rest.length < bs ∧
      (batchGenW D bs dl f).Trans ⟨i, o, cur, ks ++ cur.map (·.key), .loop⟩ (xs.map .item) ((outBGen f i ks bss).map .item)
        ⟨i + bss.length, leftBGen f i o bss, rest, staleBGen f i ks bss ++ rest.map (·.key), .loop⟩ := by
  induction xs with
  | nil =>
    intro i o cur ks hc
    exact ⟨[], cur, by simp, by simp, hc, .nil⟩
  | cons a xs ih =>
    intro i o cur ks hc
    by_cases hfull : cur.length + 1 = bs
    · obtain ⟨bss, rest, h1, h2, h3, h4⟩ := ih (i + 1) (offBGen f i (cur ++ [a])) [] (keysBGen f i ks (cur ++ [a])) (by simp only [List.length_nil]; omega)
      refine ⟨(cur ++ [a]) :: bss, rest, ?_, ?_, h3, ?_⟩
      · simpa using h1
      · intro b hb
        rcases List.mem_cons.1 hb with rfl | hb
        · simpa using hfull
        · exact h2 b hb
      · refine .pullItem (W := batchGenW D bs dl f) (x := ⟨i, o, cur, ks ++ cur.map (·.key), .loop⟩) rfl ?_
        simp only [hfull, if_true]
        have hb := bflush_trans (D := D) (bs := bs) (dl := dl) hf i o (cur ++ [a]) ks false
        simp only [List.map_nil, List.append_nil, Bool.false_eq_true, if_false] at hb h4
        have := hb.append h4
        rw [List.nil_append, ← List.map_append] at this
        have e1 : outBGen f i ks [cur ++ [a]] ++ outBGen f (i + 1) (keysBGen f i ks (cur ++ [a])) bss = outBGen f i ks ((cur ++ [a]) :: bss) := by
          simp [outBGen]
        rw [e1, Nat.add_assoc, Nat.add_comm 1] at this
        simpa [List.append_assoc, staleBGen, leftBGen] using this
    · obtain ⟨bss, rest, h1, h2, h3, h4⟩ := ih i o (cur ++ [a]) ks (by simp only [List.length_append, List.length_singleton]; omega)
      refine ⟨bss, rest, by simpa using h1, h2, h3, ?_⟩
      refine .pullItem (W := batchGenW D bs dl f) (x := ⟨i, o, cur, ks ++ cur.map (·.key), .loop⟩) rfl ?_
      simp only [hfull, if_false]
      simpa [List.append_assoc] using h4

private theorem noskip_stale (hs : ∀ i b, (f i b).2 ≠ .skip) (i : Nat) (bss : List (List (Smp C))) : staleBGen f i [] bss = [] := by
  induction bss generalizing i with
  | nil => rfl
  | cons b bss ih => simp [staleBGen, keysBGen, hs, ih]

private theorem noskip_left (hs : ∀ i b, (f i b).2 ≠ .skip) (i : Nat) (bss : List (List (Smp C))) : leftBGen f i none bss = none := by
  induction bss generalizing i with
  | nil => rfl
  | cons b bss ih => simp [leftBGen, offBGen, hs, ih]

private theorem batchGen_pass_aux (hbs : 0 < bs) (hf : ∀ i b, (f i b).2 ≠ .fatal) (xs : List (Smp C)) (s s' : σ) (hs : D.Pass s xs s') (i : Nat) :
    ∃ bss o ks, Batches bs dl xs bss ∧
      (batchGenD D bs dl f).Pass (s, ⟨i, none, [], [], .start⟩) (outBGen f i [] bss) (s', ⟨i + bss.length, o, [], ks, .start⟩) ∧
      ((∀ i b, (f i b).2 ≠ .skip) → o = none ∧ ks = []) := by
  obtain ⟨bss, rest, h1, h2, h3, h4⟩ := bloop_trans (D := D) (bs := bs) (dl := dl) hf xs i none [] [] (by simpa using hbs)
  simp only [List.nil_append, List.map_nil] at h1 h4
  have h0 : (batchGenW D bs dl f).Trans ⟨i, none, [], [], .start⟩ [] [] ⟨i, none, [], [], .loop⟩ := .tau (W := batchGenW D bs dl f) rfl .nil
  by_cases hh : 0 < rest.length ∧ dl = false
  · refine ⟨bss ++ [rest], leftBGen f i none (bss ++ [rest]), if leftBGen f i none (bss ++ [rest]) = none then [] else staleBGen f i [] (bss ++ [rest]),
      ⟨⟨[], by simpa using h1, by simpa using hbs, fun _ => rfl⟩, ?_, ?_⟩, ?_, ?_⟩
    · intro b hb; rw [List.dropLast_concat] at hb; exact h2 b hb
    · intro b hb
      rcases List.mem_append.1 hb with hb | hb
      · rw [h2 b hb]; exact ⟨hbs, Nat.le_refl _, fun _ => rfl⟩
      · rw [List.mem_singleton.1 hb]
        exact ⟨hh.1, Nat.le_of_lt h3, fun hd => by rw [hh.2] at hd; cases hd⟩
    · have h5 := bflush_trans (D := D) (bs := bs) (dl := dl) hf (i + bss.length) (leftBGen f i none bss) rest (staleBGen f i [] bss) true
      have h6 := (h0.append h4).append (.pullFin (W := batchGenW D bs dl f) (g := ⟨i + bss.length, leftBGen f i none bss, rest,
        staleBGen f i [] bss ++ rest.map (·.key), .flush true⟩) (by simp only [batchGenW, hh.1, hh.2, and_self, if_true]; rfl) h5)
      rw [List.nil_append, List.nil_append, ← List.map_append, ← outBGen_append] at h6
      refine h6.run_halt (D := D) ?_ hs
      simp [batchGenW, Nat.add_assoc, leftBGen_append, staleBGen_append, leftBGen, staleBGen]
    · intro hsk
      rw [noskip_left hsk]
      exact ⟨rfl, rfl⟩
  · refine ⟨bss, leftBGen f i none bss, if leftBGen f i none bss = none then [] else staleBGen f i [] bss ++ rest.map (·.key),
      ⟨⟨rest, h1, h3, fun hd => ?_⟩, fun b hb => h2 b (List.dropLast_subset _ hb), fun b hb => ?_⟩, ?_, ?_⟩
    · by_contra hne
      exact hh ⟨List.length_pos_iff.2 hne, hd⟩
    · rw [h2 b hb]; exact ⟨hbs, Nat.le_refl _, fun _ => rfl⟩
    · have h6 := (h0.append h4).append (.pullFin (W := batchGenW D bs dl f) (g := ⟨i + bss.length, leftBGen f i none bss, rest,
        staleBGen f i [] bss ++ rest.map (·.key), .done⟩) (by simp only [batchGenW]; rw [if_neg hh]) .nil)
      rw [List.nil_append, List.nil_append, List.append_nil] at h6
      exact h6.run_halt (D := D) (by simp [batchGenW]) hs
    · intro hsk
      rw [noskip_left hsk]
      exact ⟨rfl, rfl⟩

/-- **C84.** A pass cuts the source's pass `xs` into batches (as for a plain function, C25) and delivers what the generator function yields for the batches,
one batch after the other, each called with its own sample index; if a generator ends by `SkipSample` or a handled exception, the next batch follows.
Hypotheses: no fatal errors; the last generator of the pass before was not ended by an exception (`off = none`; see `C84_violated_next_pass`). -/
theorem C84_pass (D : Dataset σ (Smp C) κ) (bs : Nat) (hbs : 0 < bs) (dl : Bool) (f : FinalFn C C') (hf : ∀ i b, (f i b).2 ≠ .fatal)
    (xs : List (Smp C)) (s s' : σ) (hs : D.Pass s xs s') (i : Nat) :
    ∃ bss ys q, Batches bs dl xs bss ∧ (batchGenD D bs dl f).Pass (s, ⟨i, none, [], [], .start⟩) ys q ∧ q.1 = s' ∧
      ys.map (·.content) = (bss.zipIdx i).flatMap fun p => (f p.2 p.1).1 := by
  obtain ⟨bss, o, ks, h1, h2, _⟩ := batchGen_pass_aux hbs hf xs s s' hs i
  exact ⟨bss, _, _, h1, h2, rfl, outBGen_contents i [] bss⟩

/-- **C84.** If no generator is ended by an exception, the keys of the samples consist of the sample index of the batch, the number of the sample among those
of the batch, and the keys of the samples of the batch; and the next pass starts afresh. -/
theorem C84_pass_keys (D : Dataset σ (Smp C) κ) (bs : Nat) (hbs : 0 < bs) (dl : Bool) (f : FinalFn C C') (hf : ∀ i b, (f i b).2 = .done)
    (xs : List (Smp C)) (s s' : σ) (hs : D.Pass s xs s') (i : Nat) :
    ∃ bss, Batches bs dl xs bss ∧ (batchGenD D bs dl f).Pass (s, ⟨i, none, [], [], .start⟩)
      ((bss.zipIdx i).flatMap fun p => (f p.2 p.1).1.mapIdx fun j c =>
        ⟨c, .str "BatchDataset" :: .num p.2 :: .num j :: p.1.map fun a => .tup a.key⟩)
      (s', ⟨i + bss.length, none, [], [], .start⟩) := by
  have hsk : ∀ i b, (f i b).2 ≠ .skip := fun i b => by rw [hf]; simp
  obtain ⟨bss, o, ks, h1, h2, h3⟩ := batchGen_pass_aux (dl := dl) hbs (fun i b => by rw [hf]; simp) xs s s' hs i
  obtain ⟨rfl, rfl⟩ := h3 hsk
  refine ⟨bss, h1, ?_⟩
  rw [outBGen_noskip hsk] at h2
  simpa [batchGenKey, Function.comp_def] using h2

/-- **C84.** The same during a pass, also of an endless source: what is yielded for the batches made of the samples taken so far has been delivered. -/
theorem C84_items (D : Dataset σ (Smp C) κ) (bs : Nat) (hbs : 0 < bs) (dl : Bool) (f : FinalFn C C') (hf : ∀ i b, (f i b).2 ≠ .fatal)
    (xs : List (Smp C)) (s s' : σ) (hs : D.Items s xs s') (i : Nat) :
    ∃ (bss : List (List (Smp C))) (rest : List (Smp C)) (ys : List (Smp C')) (q : _), xs = bss.flatten ++ rest ∧ (∀ b ∈ bss, b.length = bs) ∧
      rest.length < bs ∧ (batchGenD D bs dl f).Items (s, ⟨i, none, [], [], .start⟩) ys q ∧ ys.map (·.content) = (bss.zipIdx i).flatMap fun p => (f p.2 p.1).1 := by
  obtain ⟨bss, rest, h1, h2, h3, h4⟩ := bloop_trans (D := D) (bs := bs) (dl := dl) hf xs i none [] [] (by simpa using hbs)
  have h0 : (batchGenW D bs dl f).Trans ⟨i, none, [], [], .start⟩ [] [] ⟨i, none, [], [], .loop⟩ := .tau (W := batchGenW D bs dl f) rfl .nil
  simp only [List.nil_append, List.map_nil] at h1 h4
  have h5 := h0.append h4
  obtain ⟨q, hq⟩ := h5.run_some (D := D) hs
  exact ⟨bss, rest, _, q, h1, h2, h3, hq, outBGen_contents i [] bss⟩

/-- A batcher for examples: first the sum, then the largest; plus 100 times the sample index. -/
def sumMax : FinalFn Nat Nat := fun i b => ([(b.map (·.content)).sum + 100 * i, (b.map (·.content)).foldl max 0 + 100 * i], .done)

example : ((batchGenD (listD [1, 2, 3]) 2 false sumMax).eval 60 (batchGenD (listD [1, 2, 3]) 2 false sumMax).init).take 5
    = [.item ⟨3, [.str "BatchDataset", .num 0, .num 0, .tup [.num 0], .tup [.num 1]]⟩,
       .item ⟨2, [.str "BatchDataset", .num 0, .num 1, .tup [.num 0], .tup [.num 1]]⟩,
       .item ⟨103, [.str "BatchDataset", .num 1, .num 0, .tup [.num 2]]⟩,
       .item ⟨103, [.str "BatchDataset", .num 1, .num 1, .tup [.num 2]]⟩, .fin] := by decide +kernel

/-! ## Invariants -/

private structure BGenJ (D : Dataset σ (Smp C) κ) (r : Bool) (bs : Nat) (dl : Bool) (f : FinalFn C C') (x : BGenX C C') : Prop where
  start : x.ctl = .start → ∀ o, x.off = some o → ∃ b : List (Smp C), (∀ a ∈ b, D.Yields r a) ∧ x.keys = b.map (·.key)
  fill : x.ctl = .loop → x.off = none ∧ (∀ a ∈ x.batch, D.Yields r a) ∧ x.keys = x.batch.map (·.key)
  flush : ∀ last, x.ctl = .flush last → (∀ a ∈ x.batch, D.Yields r a) ∧ x.keys = x.batch.map (·.key) ∧ (last = true → dl = false ∧ ¬ D.NeverEnds r)
  group : ∀ res last k j rest e, x.ctl = .group res last k j rest e → ∃ b : List (Smp C), (∀ a ∈ b, D.Yields r a) ∧ x.keys = b.map (·.key) ∧
    (f k b).1.drop j = rest ∧ (f k b).2 = e ∧ (∃ j', x.off = some j') ∧ (last = true → dl = false ∧ ¬ D.NeverEnds r)
  done : x.ctl = .done → x.off = none

private def BGenQ (D : Dataset σ (Smp C) κ) (r : Bool) (bs : Nat) (dl : Bool) (f : FinalFn C C') (x : BGenX C C') : Prop :=
  BGenJ D r bs dl f x ∧ ((x.ctl = .start ∧ x.batch = [] ∧ (x.off = none → x.keys = [])) ∨ ∃ res last k j rest e, x.ctl = .group res last k j rest e ∧ x.off = some j)

private theorem bgen_inv (r : Bool) (hR : D.RestoresSamples r) (hsk : ∀ i b, (f i b).2 ≠ .skip) :
    WInv (Source.single D) (batchGenW D bs dl f) (D.Paused r) (BGenJ D r bs dl f) (BGenQ D r bs dl f) := by
  refine WInv.ofInv batchGen_noReset (fun _ h => h.1) ?_
  rintro ⟨n, o, b, ks, c⟩ hx
  cases c with
  | start =>
    cases o with
    | none =>
      refine ⟨(by intro h; cases h), fun _ => ⟨rfl, by simp, rfl⟩, (by intro _ h; cases h), (by intro _ _ _ _ _ _ h; cases h), (by intro h; cases h)⟩
    | some o =>
      obtain ⟨b', hb, hk⟩ := hx.start rfl o rfl
      simp only at hk
      subst hk
      have hra := mapM_restore_yields hR b' hb
      simp only [batchGenW, hra]
      refine ⟨(by intro h; cases h), (by intro h; cases h), (by intro _ h; cases h), ?_, (by intro h; cases h)⟩
      intro res last k j rest e h
      cases h
      exact ⟨b', hb, rfl, rfl, rfl, ⟨0, rfl⟩, by intro h; cases h⟩
  | loop =>
    obtain ⟨h1, h2, h3⟩ := hx.fill rfl
    simp only at h1 h2 h3
    subst h1 h3
    refine ⟨fun a ha => ?_, fun hne => ?_⟩
    · have hmem : ∀ a' ∈ b ++ [a], D.Yields r a' := by
        intro a' ha'
        rcases List.mem_append.1 ha' with h | h
        · exact h2 a' h
        · rw [List.mem_singleton.1 h]; exact ha
      by_cases hfull : b.length + 1 = bs
      · simp only [hfull, if_true]
        exact ⟨(by intro h; cases h), (by intro h; cases h), (by intro _ h; cases h; exact ⟨hmem, by simp, by intro h; cases h⟩),
          (by intro _ _ _ _ _ _ h; cases h), (by intro h; cases h)⟩
      · simp only [hfull, if_false]
        exact ⟨(by intro h; cases h), (by intro _; exact ⟨rfl, hmem, by simp⟩), (by intro _ h; cases h),
          (by intro _ _ _ _ _ _ h; cases h), (by intro h; cases h)⟩
    · by_cases hh : 0 < b.length ∧ dl = false
      · rw [if_pos hh]
        exact ⟨(by intro h; cases h), (by intro h; cases h), (by intro _ h; cases h; exact ⟨h2, rfl, fun _ => ⟨hh.2, hne⟩⟩),
          (by intro _ _ _ _ _ _ h; cases h), (by intro h; cases h)⟩
      · rw [if_neg hh]
        exact ⟨(by intro h; cases h), (by intro h; cases h), (by intro _ h; cases h), (by intro _ _ _ _ _ _ h; cases h), fun _ => rfl⟩
  | flush last =>
    obtain ⟨h1, h2, h3⟩ := hx.flush last rfl
    refine ⟨(by intro h; cases h), (by intro h; cases h), (by intro _ h; cases h), ?_, (by intro h; cases h)⟩
    intro res last k j rest e h
    cases h
    exact ⟨b, h1, h2, rfl, rfl, ⟨0, rfl⟩, h3⟩
  | group res last k j rest e =>
    obtain ⟨b', h1, h2, h3, h4, ⟨j', h5⟩, h6⟩ := hx.group _ _ _ _ _ _ rfl
    simp only at h5 h2
    subst h5 h2
    cases rest with
    | cons c cs =>
      simp only [batchGenW]
      refine ⟨⟨(by intro h; cases h), (by intro h; cases h), (by intro _ h; cases h), ?_, (by intro h; cases h)⟩, .inr ⟨_, _, _, _, _, _, rfl, rfl⟩⟩
      intro res last k' j'' rest e h
      cases h
      exact ⟨b', h1, rfl, by rw [← List.drop_drop, h3, List.drop_one, List.tail_cons], h4, ⟨_, rfl⟩, h6⟩
    | nil =>
      cases e with
      | done =>
        simp only [batchGenW]
        cases last with
        | true => exact ⟨(by intro h; cases h), (by intro h; cases h), (by intro _ h; cases h), (by intro _ _ _ _ _ _ h; cases h), fun _ => rfl⟩
        | false => exact ⟨(by intro h; cases h), (fun _ => ⟨rfl, by simp, rfl⟩), (by intro _ h; cases h), (by intro _ _ _ _ _ _ h; cases h), fun _ => rfl⟩
      | skip => exact absurd h4 (hsk _ _)
      | fatal => trivial
  | done =>
    have ho := hx.done rfl
    simp only at ho
    subst ho
    exact ⟨⟨(by intro _ _ h; cases h), (by intro h; cases h), (by intro _ h; cases h), (by intro _ _ _ _ _ _ h; cases h), (by intro h; cases h)⟩,
      .inl ⟨rfl, rfl, fun _ => rfl⟩⟩

private theorem bgenQ_init (r : Bool) (n : Nat) : BGenQ D r bs dl f ⟨n, none, [], [], .start⟩ :=
  ⟨⟨(by intro _ _ h; cases h), (by intro h; cases h), (by intro _ h; cases h), (by intro _ _ _ _ _ _ h; cases h), (by intro h; cases h)⟩,
    .inl ⟨rfl, rfl, fun _ => rfl⟩⟩

private theorem bgenQ_resume (r : Bool) (x : BGenX C C') (h : BGenQ D r bs dl f x) :
    BGenQ D r bs dl f ((batchGenW D bs dl f).resume ((batchGenW D bs dl f).save x)) := by
  obtain ⟨n, o, b, ks, c⟩ := x
  cases o with
  | none => exact bgenQ_init r n
  | some o =>
    refine ⟨⟨?_, (by intro h; cases h), (by intro _ h; cases h), (by intro _ _ _ _ _ _ h; cases h), (by intro h; cases h)⟩, .inl ⟨rfl, rfl, by intro h; cases h⟩⟩
    intro _ o' _
    obtain ⟨h1, h2⟩ := h
    rcases h2 with ⟨h2, _⟩ | ⟨res, last, k, j, rest, e, h2, _⟩
    · exact h1.start h2 o rfl
    · obtain ⟨b', g1, g2, _⟩ := h1.group _ _ _ _ _ _ h2
      exact ⟨b', g1, g2⟩

private theorem bgen_paused {r : Bool} (hR : D.RestoresSamples r) (hsk : ∀ i b, (f i b).2 ≠ .skip) {p : σ × BGenX C C'}
    (hp : (batchGenD D bs dl f).Paused r p) : D.Paused r p.1 ∧ BGenQ D r bs dl f p.2 :=
  wrap_paused (bgen_inv r hR hsk) (bgenQ_init r 0) (bgenQ_resume r) (fun _ _ _ => bgenQ_init r 0) hp

/-! ## Restore keys -/

/-- **C84.** Samples made by a generator batcher whose generators are not ended by exceptions are restored from their keys, also those delivered after resuming. -/
theorem C84_restores_samples (D : Dataset σ (Smp C) κ) (bs : Nat) (dl : Bool) (f : FinalFn C C') (hsk : ∀ i b, (f i b).2 ≠ .skip) (r : Bool)
    (hR : D.RestoresSamples r) : (batchGenD D bs dl f).RestoresSamples r := by
  rintro ⟨s, x⟩ b q hp h
  obtain ⟨h1, h2⟩ := bgen_paused hR hsk hp
  refine WObs.emits (bgen_inv r hR hsk) (Z := fun b => (batchGenD D bs dl f).restoreSample b.key = some b) ?_ (wrap_obs.1 h) h1 h2.1
  rintro ⟨n, o, b, ks, c⟩ y x' hx h
  cases c with
  | start =>
    cases o with
    | none => simp only [batchGenW] at h; cases h
    | some g => simp only [batchGenW] at h; split at h <;> cases h
  | loop => simp only [batchGenW] at h; cases h
  | flush last => simp only [batchGenW] at h; cases h
  | group res last k j rest e =>
    obtain ⟨b', g1, g2, g3, g4, _⟩ := hx.group _ _ _ _ _ _ rfl
    simp only at g2
    subst g2
    cases rest with
    | cons c cs =>
      simp only [batchGenW] at h
      cases h
      have e1 : (keyTuples ((b'.map (·.key)).map .tup)).bind (fun ks => ks.mapM D.restoreSample) = some b' := by
        rw [keyTuples_map]
        exact mapM_restore_yields hR b' g1
      have hc : (f k b').1[j]? = some c := by
        rw [← List.head?_drop, g3]; rfl
      simp only [batchGenD, wrap, batchGenW, batchGenKey, if_true, e1, hc, Option.map_some]
    | nil =>
      cases e with
      | done => simp only [batchGenW] at h; cases h
      | skip => simp only [batchGenW] at h; split at h <;> cases h
      | fatal => simp only [batchGenW] at h; cases h
  | done => simp only [batchGenW] at h; cases h

example : (batchGenD (listD [1, 2, 3]) 2 false sumMax).RestoresSamples :=
  C84_restores_samples _ _ _ _ (by intro i b; simp [sumMax]) _ (listD_restores _ _)

/-! ## Resuming -/

/-- States that show the same contents. -/
private def BGenR (x y : BGenX C C') : Prop :=
  x = y ∨ ∃ n o o' b b' ks res res' k k' j rest e, e ≠ FinalEnd.skip ∧
    x = ⟨n, o, b, ks, .group res false k j rest e⟩ ∧ y = ⟨n, o', b', ks, .group res' false k' j rest e⟩

private theorem bgenR_act (x y : BGenX C C') (h : BGenR x y) :
    Act.Rel BGenR (((batchGenW D bs dl f).mapOut (·.content)).act x) (((batchGenW D bs dl f).mapOut (·.content)).act y) := by
  rcases h with rfl | ⟨n, o, o', b, b', ks, res, res', k, k', j, rest, e, he, rfl, rfl⟩
  · generalize ((batchGenW D bs dl f).mapOut (·.content)).act x = a
    cases a with
    | emit => exact .emit (.inl rfl)
    | halt => exact .halt (.inl rfl)
    | tau => exact .tau (.inl rfl)
    | pull => exact .pull (fun _ => .inl rfl) (.inl rfl)
    | reset => exact .reset (.inl rfl)
    | raise => exact .raise
  · cases rest with
    | cons c cs => exact .emit (.inr ⟨n, _, _, b, b', ks, res, res', k, k', j + 1, cs, e, he, rfl, rfl⟩)
    | nil =>
      cases e with
      | done => exact .tau (.inl rfl)
      | skip => exact absurd rfl he
      | fatal => exact .raise

/-- **C84.** If the generator function does not look at the sample index and its generators are not ended by exceptions, and the source is endless or incomplete batches
are dropped, then a run resumed from a state that was written down at once delivers the same contents as the uninterrupted run. (Missing: the full claim is false, see below.) -/
theorem C84_resumes_partial (D : Dataset σ (Smp C) κ) (bs : Nat) (dl : Bool) (f : FinalFn C C') (hidx : ∀ i i' b, f i b = f i' b)
    (hsk : ∀ i b, (f i b).2 ≠ .skip) (r : Bool) (hD : D.ResumesExactly r) (hR : D.RestoresSamples r) (hN : dl = true ∨ D.NeverEnds r) :
    (batchGenD D bs dl f).contents.ResumesExactly r := by
  intro p hp
  rw [Dataset.contents, paused_mapOut] at hp
  obtain ⟨h1, h2⟩ := bgen_paused hR hsk hp
  obtain ⟨s, x⟩ := p
  have e0 : (batchGenD D bs dl f).contents = wrap D ((batchGenW D bs dl f).mapOut (·.content)) := wrap_mapOut
  rw [e0]
  have hnr : ((batchGenW D bs dl f).mapOut (·.content)).NoReset := by
    intro x x' h
    simp only [Wrapper.mapOut] at h
    cases ha : (batchGenW D bs dl f).act x <;> rw [ha] at h <;> cases h
    exact batchGen_noReset _ _ ha
  refine Dataset.Equiv.trans ?_ (wrap_equiv hnr (hD s h1) _)
  obtain ⟨n, o, b, ks, c⟩ := x
  obtain ⟨h2, h3⟩ := h2
  rcases h3 with ⟨h3, h4, h5⟩ | ⟨res, last, k, j, rest, e, h3, h4⟩
  · simp only at h3 h4 h5
    subst h3 h4
    cases o with
    | none => rw [h5 rfl]; exact .refl _
    | some o => exact .refl _
  · simp only at h3 h4
    subst h3 h4
    obtain ⟨b', g1, g2, g3, g4, _, g6⟩ := h2.group _ _ _ _ _ _ rfl
    simp only at g2
    subst g2
    have hlast : last = false := by
      cases last with
      | false => rfl
      | true =>
        obtain ⟨i1, i2⟩ := g6 rfl
        rcases hN with hN | hN
        · rw [hN] at i1; cases i1
        · exact absurd hN i2
    subst hlast
    have hra := mapM_restore_yields hR b' g1
    have hact : ((batchGenW D bs dl f).mapOut (·.content)).act ⟨n, some j, [], b'.map (·.key), .start⟩ =
        .tau ⟨n, some 0, b', b'.map (·.key), .group true false n j ((f n b').1.drop j) (f n b').2⟩ := by
      simp only [Wrapper.mapOut, batchGenW, hra, Act.mapB]
    refine Dataset.Equiv.trans ?_ (wrap_equiv_tau hact).symm
    refine wrap_equiv_lockstep (R := BGenR) bgenR_act s (.inr ?_)
    rw [hidx n k b', g3, g4]
    exact ⟨n, some j, some 0, b, b', _, res, true, k, n, j, rest, e, g4 ▸ hsk k b', rfl, rfl⟩

/-- Each sample of the batch, one by one. -/
def unbatch : FinalFn Nat Nat := fun _ b => (b.map (·.content), .done)

example : (batchGenD (streamD id) 3 false unbatch).contents.ResumesExactly :=
  C84_resumes_partial _ _ _ _ (fun _ _ _ => rfl) (by intro i b; simp [unbatch]) _ (streamD_resumes _ _) (streamD_restores _ _)
    (.inr (streamD_never _ _))

/-! ## Violations -/

/-- Saved after the first of the two samples of the first batch and resumed, the batcher is called with sample index 1 instead of 0. -/
theorem C84_violated_index :
    ∃ p, (batchGenD (streamD id) 2 false sumMax).Paused false p ∧
      ((batchGenD (streamD id) 2 false sumMax).contents.eval 20 p).take 1 = [.item 1] ∧
      ((batchGenD (streamD id) 2 false sumMax).contents.eval 20 ((batchGenD (streamD id) 2 false sumMax).resume
        ((batchGenD (streamD id) 2 false sumMax).save p))).take 1 = [.item 101] :=
  ⟨(2, ⟨1, some 1, [⟨0, [.num 0]⟩, ⟨1, [.num 1]⟩], [[.num 0], [.num 1]], .group false false 0 1 [1] .done⟩),
    Dataset.after_paused (n := 30) (k := 1) (by rfl) .init, by decide +kernel, by decide +kernel⟩

/-- If the generator made of a batch is ended by `SkipSample` after some samples, in the uninterrupted run the next batch follows, but a run resumed in this batch dies. -/
theorem C84_violated_skip : ∃ f : FinalFn Nat Nat, (∀ i i' a, f i a = f i' a) ∧
    ∃ p, (batchGenD (streamD id) 2 false f).Paused false p ∧
      ((batchGenD (streamD id) 2 false f).contents.eval 20 p).take 1 = [.item 5] ∧
      ((batchGenD (streamD id) 2 false f).contents.eval 20 ((batchGenD (streamD id) 2 false f).resume
        ((batchGenD (streamD id) 2 false f).save p))).take 1 = [.err] :=
  ⟨fun _ b => ([(b.map (·.content)).sum], .skip), fun _ _ _ => rfl,
    (2, ⟨1, some 1, [⟨0, [.num 0]⟩, ⟨1, [.num 1]⟩], [[.num 0], [.num 1]], .group false false 0 1 [] .skip⟩),
    Dataset.after_paused (n := 30) (k := 1) (by rfl) .init, by decide +kernel, by decide +kernel⟩

/-- Even without saving: if the generator made of the last batch of a pass is ended by an exception that is handled, the next pass begins with this batch again and dies. -/
theorem C84_violated_next_pass : ∃ f : FinalFn Nat Nat, (∀ i i' a, f i a = f i' a) ∧
    ((batchGenD (listD [1, 2]) 2 true f).contents.eval 40 (batchGenD (listD [1, 2]) 2 true f).init) = [.item 3, .fin, .err] :=
  ⟨fun _ b => ([(b.map (·.content)).sum], .skip), fun _ _ _ => rfl, by decide +kernel⟩

/-- The full claim about a kept state: a state that was saved in some state and kept in memory while the run went on still resumes the run where it was saved. -/
def C84_kept_statement (D : Dataset σ (Smp C) κ) (bs : Nat) (dl : Bool) (f : FinalFn C C') : Prop :=
  ∀ (s s' : σ) (x y : BGenX C C') (ys : List (Smp C')), (batchGenD D bs dl f).Paused false (s, x) → (batchGenD D bs dl f).Items (s, x) ys (s', y) →
    (batchGenD D bs dl f).contents.Equiv (s, x) ((batchGenD D bs dl f).resume (D.save s, batchGenKept D bs dl f x y))

/-- A state saved inside of a batch that is kept in memory (as each worker process keeps its last checkpoints, and as the caller without worker processes does) changes
when the run goes on: its list of keys is emptied and filled with those of the next batches. Resumed from it, the run does not continue where it was saved, although the state
written down at once does (`C84_resumes_partial` applies). Here the samples are delivered one by one from batches of two; saved after sample 0 and kept until sample 2
has been delivered, the run resumed gives 3 instead of 1. -/
theorem C84_violated_kept :
    (batchGenD (streamD id) 2 false unbatch).contents.ResumesExactly ∧ ¬ C84_kept_statement (streamD id) 2 false unbatch ∧
    ∃ p q, (batchGenD (streamD id) 2 false unbatch).after 30 1 (batchGenD (streamD id) 2 false unbatch).init = some p ∧
      (batchGenD (streamD id) 2 false unbatch).after 30 2 p = some q ∧
      ((batchGenD (streamD id) 2 false unbatch).contents.eval 20 p).take 2 = [.item 1, .item 2] ∧
      ((batchGenD (streamD id) 2 false unbatch).contents.eval 20 ((batchGenD (streamD id) 2 false unbatch).resume
        ((streamD id).save p.1, batchGenKept (streamD id) 2 false unbatch p.2 q.2))).take 2 = [.item 3, .item 2] := by
  have hp : (batchGenD (streamD id) 2 false unbatch).after 30 1 (batchGenD (streamD id) 2 false unbatch).init =
      some (2, ⟨1, some 1, [⟨0, [.num 0]⟩, ⟨1, [.num 1]⟩], [[.num 0], [.num 1]], .group false false 0 1 [1] .done⟩) := by rfl
  refine ⟨C84_resumes_partial _ _ _ _ (fun _ _ _ => rfl) (by intro i b; simp [unbatch]) _ (streamD_resumes _ _) (streamD_restores _ _)
    (.inr (streamD_never _ _)), fun h => ?_, _, (4, ⟨2, some 1, [⟨2, [.num 2]⟩, ⟨3, [.num 3]⟩], [[.num 2], [.num 3]], .group false false 1 1 [3] .done⟩),
    hp, by rfl, by decide +kernel, by decide +kernel⟩
  have hr : (batchGenD (streamD id) 2 false unbatch).Items
      (2, ⟨1, some 1, [⟨0, [.num 0]⟩, ⟨1, [.num 1]⟩], [[.num 0], [.num 1]], .group false false 0 1 [1] .done⟩)
      [⟨1, [.str "BatchDataset", .num 0, .num 1, .tup [.num 0], .tup [.num 1]]⟩, ⟨2, [.str "BatchDataset", .num 1, .num 0, .tup [.num 2], .tup [.num 3]]⟩]
      (4, ⟨2, some 1, [⟨2, [.num 2]⟩, ⟨3, [.num 3]⟩], [[.num 2], [.num 3]], .group false false 1 1 [3] .done⟩) :=
    .item (.item rfl) (.item (.skip rfl (.skip rfl (.skip rfl (.skip rfl (.item rfl))))) .nil)
  exact Dataset.not_equiv 20 1 (by decide +kernel) (by decide +kernel) (h _ _ _ _ _ (Dataset.after_paused (n := 30) (k := 1) hp .init) hr)

end Verif.Stream
