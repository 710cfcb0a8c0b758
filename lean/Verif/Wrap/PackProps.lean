import Verif.Wrap.PackLemmas

/-! # C30, C31: packing

Vocabulary: `packsOf`, `outP` (PackLemmas.lean), `Batches` (BatchProps.lean). -/

namespace Verif.Stream

variable {σ κ C C' : Type}

/-! ## C30 -/

/-- A pass over the source samples `xs` cuts them into chunks of `buffer_size` (the last one may be smaller), and
delivers, chunk after chunk, the packs the pre packer makes of the chunk, in the order it gives them, each combined by
the final packer. Hypotheses: no fatal errors; of any 10 full buffers in a row, one gives a pack (`C30_round_limit`: otherwise the iteration fails). -/
theorem C30_packing_pass (D : Dataset σ (Smp C) κ) (size : Nat) (hsize : 0 < size) (pre : PreFn C) (gen : Bool)
    (f : FinalFn C C') (hf : ∀ i l, (f i l).2 ≠ .fatal) (p : Nat → List (Smp C) → List (List (Smp C)))
    (hp : ∀ i l, pre i l = some (p i l)) (hne : PacksOften size p)
    (xs : List (Smp C)) (s s' : σ) (hs : D.Pass s xs s') (i j : Nat) :
    ∃ chunks, Batches size false xs chunks ∧
      (packD D size pre gen f).Pass (s, ⟨[], [], [], i, j, .check 0⟩) (outP gen f j (packsOf p i chunks))
        (s', ⟨[], [], [], i + chunks.length, j + (packsOf p i chunks).length, .check 0⟩) := by
  obtain ⟨chunks, rest, r, h1, h2, h3, h4⟩ := pack_loop_trans (D := D) (gen := gen) hf hp hne xs i j [] [] (by simpa using hsize) (by simp) (by simp) (by simp [packsOf])
  rw [List.length_nil, Nat.add_zero] at h4
  rw [List.nil_append] at h1
  have hstart : (packW D size pre gen f).Trans ⟨[], [], [], i, j, .check 0⟩ [] [] ⟨[], [], [], i, j, .fill 0⟩ :=
    .tau (W := packW D size pre gen f) (by rfl) .nil
  have h5 := hstart.append h4
  rw [List.nil_append, List.nil_append] at h5
  have hend : (packW D size pre gen f).Trans
      ⟨rest, [], [], i + chunks.length, j + (packsOf p i chunks).length, .fill r⟩ [.fin] []
      ⟨rest, [], [], i + chunks.length, j + (packsOf p i chunks).length, .ended⟩ := by
    refine .pullFin (W := packW D size pre gen f) (f := fun a => ⟨rest ++ [a], [], [], i + chunks.length,
      j + (packsOf p i chunks).length, .fill r⟩) ?_ .nil
    simp only [packW, List.length_nil, Nat.add_zero, h3, if_true]
  by_cases hr : rest = []
  · subst hr
    refine ⟨chunks, ⟨⟨[], h1, by simpa using hsize, fun _ => rfl⟩, ?_, ?_⟩, ?_⟩
    · intro b hb; exact h2 b (List.mem_of_mem_dropLast hb)
    · intro b hb; have := h2 b hb; omega
    · have hd : (packW D size pre gen f).Trans
          ⟨[], [], [], i + chunks.length, j + (packsOf p i chunks).length, .ended⟩ [] []
          ⟨[], [], [], i + chunks.length, j + (packsOf p i chunks).length, .drain⟩ :=
        .tau (W := packW D size pre gen f) (by rfl) .nil
      have h6 := (h5.append hend).append hd
      rw [List.append_nil, List.append_nil, List.append_nil] at h6
      exact h6.run_halt (D := D) (by rfl) hs
  · have hlr := List.length_pos_iff.2 hr
    refine ⟨chunks ++ [rest], ⟨⟨[], by simpa using h1, by simpa using hsize, fun _ => rfl⟩, ?_, ?_⟩, ?_⟩
    · intro b hb; rw [List.dropLast_concat] at hb; exact h2 b hb
    · intro b hb
      rcases List.mem_append.1 hb with hb | hb
      · have := h2 b hb; simp; omega
      · rw [List.mem_singleton.1 hb]; simp; omega
    · have hd : (packW D size pre gen f).Trans
          ⟨rest, [], [], i + chunks.length, j + (packsOf p i chunks).length, .ended⟩ [] []
          ⟨[], (p (i + chunks.length) rest).flatten, (p (i + chunks.length) rest).map (·.length),
            i + chunks.length + 1, j + (packsOf p i chunks).length, .drain⟩ := by
        refine .tau (W := packW D size pre gen f) ?_ .nil
        simp only [packW, prePack, hp, hr, if_false]
        simp
      have hdr := pack_drain_trans (D := D) (size := size) (pre := pre) (gen := gen) hf []
        (i + chunks.length + 1) (p (i + chunks.length) rest) (j + (packsOf p i chunks).length)
      have h6 := ((h5.append hend).append hd).append hdr
      have e0 : packsOf p i (chunks ++ [rest]) = packsOf p i chunks ++ p (i + chunks.length) rest := by
        rw [packsOf_append]; simp [packsOf]
      rw [List.append_nil, List.append_nil, List.append_nil, List.append_nil, ← List.map_append, ← outP_append, ← e0,
        Nat.add_assoc j, ← List.length_append, ← e0, Nat.add_assoc i,
        show i + (chunks.length + 1) = i + (chunks ++ [rest]).length by simp] at h6
      exact h6.run_halt (D := D) (by rfl) hs

/-- If the pre packer distributes the samples of the buffer to packs, every source sample is in exactly one pack: the
packs of a pass contain the source samples, as often as the source delivers them. -/
theorem C30_exactly_once (p : Nat → List (Smp C) → List (List (Smp C))) (hp : ∀ i l, (p i l).flatten.Perm l)
    (size : Nat) (xs : List (Smp C)) (chunks : List (List (Smp C))) (h : Batches size false xs chunks) (i : Nat) :
    (packsOf p i chunks).flatten.Perm xs := by
  obtain ⟨⟨rest, h1, _, h2⟩, _, _⟩ := h
  rw [h1, h2 rfl, List.append_nil]
  clear h1
  have key : ∀ (chunks : List (List (Smp C))) (i : Nat), (packsOf p i chunks).flatten.Perm chunks.flatten := by
    intro chunks
    induction chunks with
    | nil => intro i; simp [packsOf]
    | cons c cs ih =>
      intro i
      have : packsOf p i (c :: cs) = p i c ++ packsOf p (i + 1) cs := by simp [packsOf]
      rw [this, List.flatten_append, List.flatten_cons]
      exact (hp i c).append (ih _)
  exact key chunks i

/-- If 10 full buffers in a row give no pack and the source delivers another full buffer, the iteration fails, even if the pre packer would give packs
of this one. (Ten are tolerated: `C30_packing_pass`.) -/
theorem C30_round_limit (D : Dataset σ (Smp C) κ) (size : Nat) (hsize : 0 < size) (pre : PreFn C) (gen : Bool)
    (f : FinalFn C C') (p : Nat → List (Smp C) → List (List (Smp C))) (hp : ∀ i l, pre i l = some (p i l)) (i j : Nat)
    (cs : List (List (Smp C))) (hcs : cs.length = 10) (hfull : ∀ c ∈ cs, c.length = size) (hempty : packsOf p i cs = [])
    (l : List (Smp C)) (hl : l.length = size) (s s' : σ) (hs : D.Items s (cs.flatten ++ l) s') :
    Obs (packD D size pre gen f).step (s, ⟨[], [], [], i, j, .check 0⟩) .err := by
  have h0 : (packW D size pre gen f).Trans ⟨[], [], [], i, j, .check 0⟩ [] [] ⟨[], [], [], i, j, .fill 0⟩ :=
    .tau (W := packW D size pre gen f) (by rfl) .nil
  have h1 := pack_empty_trans (D := D) (gen := gen) (f := f) hsize hp j cs 0 i (by omega) hfull hempty
  have h2 := pack_fill_trans (D := D) (size := size) (pre := pre) (gen := gen) (f := f) (0 + cs.length) (i + cs.length) j l [] (by simp [hl])
  have h3 := (h0.append h1).append h2
  simp only [List.append_nil, List.nil_append, ← List.map_append] at h3
  refine wrap_obs.2 (h3.obs_silent hs (.raise ?_))
  simp [packW, hl, hcs]

/-- A pre packer for examples: pairs. -/
def pairPacks : PreFn C := fun _ l => some (go l)
where
  go : List (Smp C) → List (List (Smp C))
    | a :: b :: l => [b, a] :: go l
    | [a] => [[a]]
    | [] => []

example : ((packD (listD [1, 2, 3, 4, 5]) 4 pairPacks false (plainFinal sumBatch)).eval 60
      (packD (listD [1, 2, 3, 4, 5]) 4 pairPacks false (plainFinal sumBatch)).init).take 4
    = [.item ⟨3, [.str "PackingDataset", .num 0, .tup [.num 1], .tup [.num 0]]⟩,
       .item ⟨7, [.str "PackingDataset", .num 1, .tup [.num 3], .tup [.num 2]]⟩,
       .item ⟨5, [.str "PackingDataset", .num 2, .tup [.num 4]]⟩, .fin] := by decide +kernel

/-- A pre packer that gives a pack only for each tenth buffer meets the hypothesis of `C30_packing_pass`. -/
example : PacksOften 1 fun i (l : List (Smp Nat)) => if i % 10 = 9 then [l] else [] := by
  intro i cs hc _ he
  have hall : ∀ c ∈ cs.zipIdx i, c.2 % 10 ≠ 9 := by
    intro c hc' h9
    have := List.flatMap_eq_nil_iff.1 he c hc'
    simp [h9] at this
  have hk : 9 - i % 10 < cs.length := by omega
  have hm : (cs[9 - i % 10], i + (9 - i % 10)) ∈ cs.zipIdx i := by
    have := List.getElem_mem (l := cs.zipIdx i) (n := 9 - i % 10) (by simpa using hk)
    simpa using this
  exact hall _ hm (by simp only; omega)

/-- It fails with 11 buffers, of which the first ten give nothing, and gives the one pack if the tenth gives it. -/
example :
    ((packD (listD (List.range 12)) 1 (fun i l => some (if i = 10 then [l] else [])) false (plainFinal sumBatch)).eval 90
      (packD (listD (List.range 12)) 1 (fun i l => some (if i = 10 then [l] else [])) false (plainFinal sumBatch)).init).take 2 = [.err] ∧
    ((packD (listD (List.range 12)) 1 (fun i l => some (if i = 9 then [l] else [])) false (plainFinal sumBatch)).eval 90
      (packD (listD (List.range 12)) 1 (fun i l => some (if i = 9 then [l] else [])) false (plainFinal sumBatch)).init).take 2 =
        [.item ⟨9, [.str "PackingDataset", .num 0, .tup [.num 9]]⟩, .fin] := by decide +kernel

theorem pairPacks_perm (l : List (Smp C)) : (pairPacks.go l).flatten.Perm l := by
  match l with
  | [] => exact .nil
  | [a] => simp [pairPacks.go]
  | a :: b :: l =>
    simp only [pairPacks.go, List.flatten_cons, List.cons_append, List.nil_append]
    exact (List.Perm.swap a b _).trans (((pairPacks_perm l).cons b).cons a)

/-! ## Invariants -/

/-- The pre packer gives back only samples of the buffer. -/
def PreSub (pre : PreFn C) : Prop := ∀ i l packs, pre i l = some packs → ∀ p ∈ packs, ∀ a ∈ p, a ∈ l

private structure PackJ (Y : Smp C → Prop) (NE : Prop) (f : FinalFn C C') (gen : Bool) (x : PackX C C') : Prop where
  rb : ∀ a ∈ x.rb, Y a
  pb : ∀ a ∈ x.pb, Y a
  empty : x.rb = [] ∨ (∃ r, x.ctl = .fill r) ∨ x.ctl = .ended
  sub : ∀ last idx j keys rest e, x.ctl = .sub last idx j keys rest e → ∃ pack pre, (∀ a ∈ pack, Y a) ∧
    keys = pack.map (·.key) ∧ f idx pack = (pre ++ rest, e) ∧ pre.length = j ∧ (last = true → NE)
  ended : (x.ctl = .ended ∨ x.ctl = .drain ∨ x.ctl = .final true) → NE
  dead : x.ctl ≠ .dead

private theorem pack_inv (D : Dataset σ (Smp C) κ) (size : Nat) (pre : PreFn C) (hsub : PreSub pre) (gen : Bool)
    (f : FinalFn C C') (r : Bool) :
    WInv (Source.single D) (packW D size pre gen f) (D.Paused r)
      (PackJ (D.Yields r) (¬ D.NeverEnds r) f gen)
      (fun x => PackJ (D.Yields r) (¬ D.NeverEnds r) f gen x ∧ x.rb = [] ∧
        (x.ctl = .check 0 ∨ ∃ last idx j keys rest e, x.ctl = .sub last idx j keys rest e ∧ 0 < j)) := by
  have hpre : ∀ (x : PackX C C') (x' : PackX C C') (nx : PackCtl C'), PackJ (D.Yields r) (¬ D.NeverEnds r) f gen x →
      (nx = .drain → ¬ D.NeverEnds r) → (nx = .drain ∨ ∃ r, nx = .check r) →
      prePack pre x nx = .tau x' → PackJ (D.Yields r) (¬ D.NeverEnds r) f gen x' := by
    intro x x' nx hx hn hnx h
    unfold prePack at h
    split at h
    · cases h
    · split at h
      · next hrb =>
        cases h
        refine ⟨hx.rb, hx.pb, .inl hrb, ?_, ?_, ?_⟩
        · rcases hnx with rfl | ⟨r, rfl⟩ <;> (intro _ _ _ _ _ _ h; cases h)
        · rcases hnx with rfl | ⟨r, rfl⟩
          · exact fun _ => hn rfl
          · simp
        · rcases hnx with rfl | ⟨r, rfl⟩ <;> simp
      · split at h
        · next packs hpk =>
          cases h
          refine ⟨by simp, ?_, .inl rfl, ?_, ?_, ?_⟩
          · intro a ha
            obtain ⟨p, hp, ha⟩ := List.mem_flatten.1 ha
            exact hx.rb a (hsub _ _ _ hpk p hp a ha)
          · rcases hnx with rfl | ⟨r, rfl⟩ <;> (intro _ _ _ _ _ _ h; cases h)
          · rcases hnx with rfl | ⟨r, rfl⟩
            · exact fun _ => hn rfl
            · simp
          · rcases hnx with rfl | ⟨r, rfl⟩ <;> simp
        · cases h
  refine WInv.mk' pack_noReset (fun _ h => h.1) ?_ ?_ ?_ ?_ ?_
  · rintro ⟨rb, pb, lens, i, j, c⟩ b x' hx h
    cases c with
    | check r => simp only [packW] at h; cases h
    | fill r =>
      simp only [packW, prePack] at h
      split at h
      · cases h
      · split at h
        · cases h
        · split at h
          · cases h
          · split at h
            · cases h
            · split at h
              · cases h
              · split at h <;> cases h
    | ended =>
      simp only [packW, prePack] at h
      split at h
      · cases h
      · split at h
        · cases h
        · split at h <;> cases h
    | final last =>
      simp only [packW] at h
      split at h <;> cases h
    | sub last idx k keys rest e =>
      cases rest with
      | nil => simp only [packW] at h; split at h <;> cases h
      | cons c cs =>
        simp only [packW] at h
        cases h
        have hrb : rb = [] := by
          rcases hx.empty with h | ⟨r, h⟩ | h
          · exact h
          · cases h
          · cases h
        obtain ⟨pack, pr, h1, h2, h3, h4, h5⟩ := hx.sub _ _ _ _ _ _ rfl
        refine ⟨⟨hx.rb, hx.pb, .inl hrb, ?_, by simp, by simp⟩, hrb, .inr ⟨_, _, _, _, _, _, rfl, Nat.succ_pos _⟩⟩
        intro last' idx' j' keys' rest' e' he
        cases he
        exact ⟨pack, pr ++ [c], h1, h2, by simpa using h3, by simpa using h4, h5⟩
    | drain => simp only [packW] at h; split at h <;> cases h
    | dead => simp only [packW] at h; cases h
  · rintro ⟨rb, pb, lens, i, j, c⟩ x' hx h
    cases c with
    | check r => simp only [packW] at h; cases h
    | fill r =>
      simp only [packW, prePack] at h
      split at h
      · cases h
      · split at h
        · cases h
        · split at h
          · cases h
          · split at h
            · cases h
            · split at h
              · cases h
              · split at h <;> cases h
    | ended =>
      simp only [packW, prePack] at h
      split at h
      · cases h
      · split at h
        · cases h
        · split at h <;> cases h
    | final last =>
      simp only [packW] at h
      split at h <;> cases h
    | sub last idx k keys rest e =>
      cases rest with
      | nil => simp only [packW] at h; split at h <;> cases h
      | cons c cs => simp only [packW] at h; cases h
    | drain =>
      simp only [packW] at h
      split at h
      · cases h
        have hrb : rb = [] := by
          rcases hx.empty with h | ⟨r, h⟩ | h
          · exact h
          · cases h
          · cases h
        refine ⟨⟨hx.rb, hx.pb, .inl hrb, ?_, by simp, by simp⟩, hrb, .inl rfl⟩
        intro _ _ _ _ _ _ h; cases h
      · cases h
    | dead => simp only [packW] at h; cases h
  · rintro ⟨rb, pb, lens, i, j, c⟩ x' hx h
    have hrb : (∀ r, c ≠ .fill r) → c ≠ .ended → rb = [] := by
      intro h1 h2
      rcases hx.empty with h | ⟨r, h⟩ | h
      · exact h
      · exact absurd h (h1 r)
      · exact absurd h h2
    cases c with
    | check r =>
      simp only [packW] at h
      cases h
      refine ⟨hx.rb, hx.pb, .inl (hrb (by simp) (by simp)), ?_, ?_, ?_⟩
      · intro _ _ _ _ _ _ h; simp only at h; split at h <;> cases h
      · simp only; split <;> simp
      · simp only; split <;> simp
    | fill r =>
      simp only [packW] at h
      split at h
      · cases h
      · split at h
        · cases h
        · split at h
          · cases h
          · exact hpre _ _ _ hx (by simp) (.inr ⟨_, rfl⟩) h
    | ended =>
      simp only [packW] at h
      exact hpre _ _ _ hx (fun _ => hx.ended (.inl rfl)) (.inl rfl) h
    | final last =>
      cases lens with
      | nil => simp only [packW] at h; cases h
      | cons l ls =>
        simp only [packW] at h
        cases h
        refine ⟨hx.rb, ?_, .inl (hrb (by simp) (by simp)), ?_, by simp, by simp⟩
        · intro a ha; exact hx.pb a (List.mem_of_mem_drop ha)
        · intro last' idx' j' keys' rest' e' he
          cases he
          refine ⟨pb.take l, [], ?_, rfl, rfl, rfl, ?_⟩
          · intro a ha; exact hx.pb a (List.mem_of_mem_take ha)
          · intro hl; exact hx.ended (by subst hl; simp)
    | sub last idx k keys rest e =>
      cases rest with
      | nil =>
        simp only [packW] at h
        split at h
        · cases h
        · cases h
          refine ⟨hx.rb, hx.pb, .inl (hrb (by simp) (by simp)), ?_, ?_, ?_⟩
          · intro _ _ _ _ _ _ h; simp only at h; split at h <;> cases h
          · obtain ⟨_, _, _, _, _, _, h5⟩ := hx.sub _ _ _ _ _ _ rfl
            intro h
            cases last
            · simp at h
            · exact h5 rfl
          · simp only; split <;> simp
      | cons c cs => simp only [packW] at h; cases h
    | drain =>
      simp only [packW] at h
      split at h
      · cases h
      · cases h
        exact ⟨hx.rb, hx.pb, .inl (hrb (by simp) (by simp)), (by intro _ _ _ _ _ _ h; cases h),
          fun _ => hx.ended (by simp), by simp⟩
    | dead => simp only [packW] at h; cases h
  · rintro ⟨rb, pb, lens, i, j, c⟩ ii e g hx h a ha
    cases c with
    | check r => simp only [packW] at h; cases h
    | fill r =>
      simp only [packW, prePack] at h
      split at h
      · cases h
        refine ⟨?_, hx.pb, .inr (.inl ⟨_, rfl⟩), (by intro _ _ _ _ _ _ h; cases h), by simp, by simp⟩
        intro b hb
        rcases List.mem_append.1 hb with hb | hb
        · exact hx.rb b hb
        · rw [List.mem_singleton.1 hb]; exact ha
      · split at h
        · cases h
        · split at h
          · cases h
          · split at h
            · cases h
            · split at h
              · cases h
              · split at h <;> cases h
    | ended =>
      simp only [packW, prePack] at h
      split at h
      · cases h
      · split at h
        · cases h
        · split at h <;> cases h
    | final last =>
      simp only [packW] at h
      split at h <;> cases h
    | sub last idx k keys rest e =>
      cases rest with
      | nil => simp only [packW] at h; split at h <;> cases h
      | cons c cs => simp only [packW] at h; cases h
    | drain => simp only [packW] at h; split at h <;> cases h
    | dead => simp only [packW] at h; cases h
  · rintro ⟨rb, pb, lens, i, j, c⟩ ii e g hx h hne
    cases c with
    | check r => simp only [packW] at h; cases h
    | fill r =>
      simp only [packW, prePack] at h
      split at h
      · cases h
        exact ⟨hx.rb, hx.pb, .inr (.inr rfl), (by intro _ _ _ _ _ _ h; cases h), fun _ => hne, by simp⟩
      · split at h
        · cases h
        · split at h
          · cases h
          · split at h
            · cases h
            · split at h
              · cases h
              · split at h <;> cases h
    | ended =>
      simp only [packW, prePack] at h
      split at h
      · cases h
      · split at h
        · cases h
        · split at h <;> cases h
    | final last =>
      simp only [packW] at h
      split at h <;> cases h
    | sub last idx k keys rest e =>
      cases rest with
      | nil => simp only [packW] at h; split at h <;> cases h
      | cons c cs => simp only [packW] at h; cases h
    | drain => simp only [packW] at h; split at h <;> cases h
    | dead => simp only [packW] at h; cases h

private theorem pack_paused {D : Dataset σ (Smp C) κ} {size : Nat} {pre : PreFn C} (hsub : PreSub pre) {gen : Bool}
    {f : FinalFn C C'} {r : Bool} (hR : D.RestoresSamples r) {p : σ × PackX C C'}
    (h : (packD D size pre gen f).Paused r p) :
    D.Paused r p.1 ∧ PackJ (D.Yields r) (¬ D.NeverEnds r) f gen p.2 ∧ p.2.rb = [] ∧
      (p.2.ctl = .check 0 ∨ ∃ last idx j keys rest e, p.2.ctl = .sub last idx j keys rest e ∧ 0 < j) := by
  have hinit : PackJ (D.Yields r) (¬ D.NeverEnds r) f gen (⟨[], [], [], 0, 0, .check 0⟩ : PackX C C') :=
    ⟨by simp, by simp, .inl rfl, (by intro _ _ _ _ _ _ h; cases h), by simp, by simp⟩
  refine wrap_paused (pack_inv D size pre hsub gen f r) ⟨hinit, rfl, .inl rfl⟩ ?_ (fun _ _ _ => ⟨hinit, rfl, .inl rfl⟩) h
  rintro ⟨rb, pb, lens, i, j, c⟩ ⟨h1, h2, h3⟩
  simp only at h2
  subst h2
  have : (packW D size pre gen f).resume ((packW D size pre gen f).save ⟨[], pb, lens, i, j, c⟩) =
      ⟨[], pb, lens, i, j, .check 0⟩ := by
    simp only [packW, List.map_nil, List.mapM_nil, mapM_restore_yields hR pb h1.pb]
    rfl
  rw [this]
  exact ⟨⟨by simp, h1.pb, .inl rfl, (by intro _ _ _ _ _ _ h; cases h), by simp, by simp⟩, rfl, .inl rfl⟩

/-- The number of samples held never exceeds the buffer size, if the pre packer does not invent samples. -/
theorem C30_buffer_bound (D : Dataset σ (Smp C) κ) (size : Nat) (pre : PreFn C)
    (hlen : ∀ i l packs, pre i l = some packs → packs.flatten.length ≤ l.length) (gen : Bool) (f : FinalFn C C')
    (r : Bool) (p : σ × PackX C C') (h : (packD D size pre gen f).Paused r p) :
    p.2.rb.length + p.2.pb.length ≤ size := by
  have hinv : WInv (Source.single D) (packW D size pre gen f) (D.Paused r)
      (fun x => x.rb.length + x.pb.length ≤ size) (fun x => x.rb.length + x.pb.length ≤ size) := by
    refine WInv.ofAct pack_noReset ?_
    have hpp : ∀ (x : PackX C C') (nx : PackCtl C'), x.rb.length + x.pb.length ≤ size →
        (prePack pre x nx).All fun x => x.rb.length + x.pb.length ≤ size := by
      intro x nx hx
      unfold prePack
      split
      · trivial
      · split
        · exact hx
        · split
          · next packs hpk =>
            have := hlen _ _ _ hpk
            simp only [Act.All, List.length_nil]; omega
          · trivial
    rintro ⟨rb, pb, lens, i, j, c⟩ hx
    cases c with
    | check r => exact hx
    | fill r =>
      simp only [packW]
      split
      · next h => exact ⟨fun a => by simp only [List.length_append, List.length_singleton] at h ⊢; omega, hx⟩
      · split
        · trivial
        · split
          · trivial
          · exact hpp _ _ hx
    | ended => exact hpp _ _ hx
    | final last =>
      cases lens with
      | nil => trivial
      | cons l ls => simp only [packW, Act.All, List.length_drop] at hx ⊢; omega
    | sub last idx k keys rest e =>
      cases rest with
      | nil => simp only [packW]; split <;> trivial
      | cons c cs => exact hx
    | drain => simp only [packW]; split <;> exact hx
    | dead => trivial
  refine (wrap_paused hinv (Nat.zero_le _) ?_ (fun _ _ _ => Nat.zero_le _) h).2
  intro x hx
  have hm : ∀ (l : List (List Key)) (l' : List (Smp C)), l.mapM D.restoreSample = some l' → l'.length = l.length := by
    intro l
    induction l with
    | nil => intro l' h; cases h; rfl
    | cons a l ih =>
      intro l' h
      rw [List.mapM_cons] at h
      cases h1 : D.restoreSample a with
      | none => rw [h1] at h; cases h
      | some b =>
        cases h2 : l.mapM D.restoreSample with
        | none => rw [h1, h2] at h; cases h
        | some m => rw [h1, h2] at h; cases h; simp [ih _ h2]
  simp only [packW]
  split
  · next rb pb h1 h2 =>
    have := hm _ _ h1
    have := hm _ _ h2
    simp only [List.length_map] at *
    omega
  · simp

/-! ## C31 -/

private theorem pack_resume {D : Dataset σ (Smp C) κ} {size : Nat} {pre : PreFn C} {gen : Bool} {f : FinalFn C C'}
    {r : Bool} (hR : D.RestoresSamples r) {x : PackX C C'} (h1 : ∀ a ∈ x.pb, D.Yields r a) (h2 : x.rb = []) :
    (packW D size pre gen f).resume ((packW D size pre gen f).save x) =
      ⟨[], x.pb, x.lens, x.pidx, x.fidx, .check 0⟩ := by
  simp only [packW, h2, List.map_nil, List.mapM_nil, mapM_restore_yields hR x.pb h1]
  rfl

/-- Emptying the packs at the end of a pass and going on with the next pass without reporting the end. -/
private theorem pack_drain_misses (D : Dataset σ (Smp C) κ) (size : Nat) (pre : PreFn C) (gen : Bool) (f : FinalFn C C')
    (s : σ) (i : Nat) (lens : List Nat) : ∀ (pb : List (Smp C)) (j : Nat),
    (packD D size pre gen f).MissesEnd (s, ⟨[], pb, lens, i, j, .drain⟩) (s, ⟨[], pb, lens, i, j, .check 0⟩) := by
  induction lens with
  | nil =>
    intro pb j
    exact .fin (wrap_obs.2 (.halt (by rfl))) (.refl _)
  | cons l ls ih =>
    intro pb j
    refine .congr (p' := (s, ⟨[], pb.drop l, ls, i, j + 1, .sub true j 0 ((pb.take l).map (·.key)) (f j (pb.take l)).1
        (f j (pb.take l)).2⟩)) (q' := (s, ⟨[], pb.drop l, ls, i, j + 1, .sub false j 0 ((pb.take l).map (·.key))
        (f j (pb.take l)).1 (f j (pb.take l)).2⟩))
      ((wrap_equiv_tau (x' := ⟨[], pb, l :: ls, i, j, .final true⟩) (by simp [packW])).trans (wrap_equiv_tau (by rfl)))
      ((wrap_equiv_tau (x' := ⟨[], pb, l :: ls, i, j, .final false⟩) (by simp [packW])).trans (wrap_equiv_tau (by rfl))) ?_
    generalize (f j (pb.take l)).1 = outs
    generalize (f j (pb.take l)).2 = e
    generalize (pb.take l).map (·.key) = keys
    have : ∀ k, (packD D size pre gen f).MissesEnd (s, ⟨[], pb.drop l, ls, i, j + 1, .sub true j k keys outs e⟩)
        (s, ⟨[], pb.drop l, ls, i, j + 1, .sub false j k keys outs e⟩) := by
      induction outs with
      | nil =>
        intro k
        by_cases he : e = .fatal
        · exact .err (wrap_obs.2 (.raise (by simp [packW, he]))) (wrap_obs.2 (.raise (by simp [packW, he])))
        · exact .congr (wrap_equiv_tau (by simp only [packW, he, if_false]; rfl))
            (wrap_equiv_tau (by simp only [packW, he, if_false]; rfl)) (ih _ _)
      | cons c cs ihc =>
        intro k
        exact .item (wrap_obs.2 (.emit (by rfl))) (wrap_obs.2 (.emit (by rfl))) (ihc (k + 1))
    exact this 0

private theorem plainFinal_rest {f : BatchFn C C'} {i : Nat} {l : List (Smp C)} {pr rest : List C'} {e : FinalEnd}
    (h : plainFinal f i l = (pr ++ rest, e)) (hk : 0 < pr.length) : rest = [] ∧ e ≠ .fatal := by
  unfold plainFinal at h
  cases hf : f i l <;> rw [hf] at h <;> simp only [Prod.mk.injEq] at h <;> obtain ⟨h1, h2⟩ := h
  · cases pr with
    | nil => simp at hk
    | cons a pr =>
      simp only [List.cons_append, List.cons.injEq] at h1
      have := List.append_eq_nil_iff.1 h1.2.symm
      subst h2
      exact ⟨this.2, by simp⟩
  all_goals
    have := List.append_eq_nil_iff.1 h1.symm
    rw [this.1] at hk
    simp at hk

/-- With a plain final packer: the resumed run shows the same events for ever, or only misses the report of the end of
the current pass (if it is saved while the last packs of the pass are delivered). -/
theorem C31_packing_resumes_partial (D : Dataset σ (Smp C) κ) (size : Nat) (pre : PreFn C) (hsub : PreSub pre)
    (f : BatchFn C C') (hD : D.ResumesExactly) (hR : D.RestoresSamples)
    (p : σ × PackX C C') (hp : (packD D size pre false (plainFinal f)).Paused false p) :
    (packD D size pre false (plainFinal f)).Equiv p
        ((packD D size pre false (plainFinal f)).resume ((packD D size pre false (plainFinal f)).save p)) ∨
    (packD D size pre false (plainFinal f)).MissesEnd p
        ((packD D size pre false (plainFinal f)).resume ((packD D size pre false (plainFinal f)).save p)) := by
  obtain ⟨h1, h2, h3, h4⟩ := pack_paused hsub hR hp
  obtain ⟨s, x⟩ := p
  have e0 : (packD D size pre false (plainFinal f)).resume ((packD D size pre false (plainFinal f)).save (s, x)) =
      (D.resume (D.save s), ⟨[], x.pb, x.lens, x.pidx, x.fidx, .check 0⟩) := by
    simp only [packD, wrap, pack_resume hR h2.pb h3]
  rw [e0]
  have e2 := wrap_equiv (W := packW D size pre false (plainFinal f)) pack_noReset (hD s h1)
    ⟨[], x.pb, x.lens, x.pidx, x.fidx, .check 0⟩
  obtain ⟨rb, pb, lens, i, j, c⟩ := x
  simp only at h3 h4 e2 ⊢
  subst h3
  rcases h4 with rfl | ⟨last, idx, k, keys, rest, e, rfl, hk⟩
  · exact .inl e2
  · obtain ⟨pack, pr, _, _, h5, h6, h7⟩ := h2.sub _ _ _ _ _ _ rfl
    obtain ⟨hrest, he⟩ := plainFinal_rest h5 (by omega)
    subst hrest
    cases last with
    | false => exact .inl ((wrap_equiv_tau (by simp only [packW, he, if_false]; rfl)).trans e2)
    | true =>
      exact .inr (.congr (wrap_equiv_tau (by simp only [packW, he, if_false]; rfl)) e2.symm
        (pack_drain_misses D size pre false (plainFinal f) s i lens pb j))

/-- With an endless source (as in training) and a plain final packer the dataset resumes exactly. -/
theorem C31_packing_resumes_endless_partial (D : Dataset σ (Smp C) κ) (size : Nat) (pre : PreFn C) (hsub : PreSub pre)
    (f : BatchFn C C') (hD : D.ResumesExactly) (hR : D.RestoresSamples) (hN : D.NeverEnds) :
    (packD D size pre false (plainFinal f)).ResumesExactly := by
  intro p hp
  obtain ⟨h1, h2, h3, h4⟩ := pack_paused hsub hR hp
  obtain ⟨s, x⟩ := p
  have e0 : (packD D size pre false (plainFinal f)).resume ((packD D size pre false (plainFinal f)).save (s, x)) =
      (D.resume (D.save s), ⟨[], x.pb, x.lens, x.pidx, x.fidx, .check 0⟩) := by
    simp only [packD, wrap, pack_resume hR h2.pb h3]
  rw [e0]
  have e2 := wrap_equiv (W := packW D size pre false (plainFinal f)) pack_noReset (hD s h1)
    ⟨[], x.pb, x.lens, x.pidx, x.fidx, .check 0⟩
  obtain ⟨rb, pb, lens, i, j, c⟩ := x
  simp only at h3 h4 e2 ⊢
  subst h3
  rcases h4 with rfl | ⟨last, idx, k, keys, rest, e, rfl, hk⟩
  · exact e2
  · obtain ⟨pack, pr, _, _, h5, h6, h7⟩ := h2.sub _ _ _ _ _ _ rfl
    obtain ⟨hrest, he⟩ := plainFinal_rest h5 (by omega)
    subst hrest
    cases last with
    | false => exact (wrap_equiv_tau (by simp only [packW, he, if_false]; rfl)).trans e2
    | true => exact absurd hN (h7 rfl)

theorem pairPacks_sub : PreSub (pairPacks (C := C)) := by
  intro i l packs h p hp a ha
  cases h
  exact (pairPacks_perm l).subset (List.mem_flatten.2 ⟨p, hp, ha⟩)

example : (packD (streamD id) 4 pairPacks false (plainFinal sumBatch)).ResumesExactly :=
  C31_packing_resumes_endless_partial _ _ _ pairPacks_sub _ (streamD_resumes _ _) (streamD_restores _ _)
    (streamD_never _ _)

/-- C31 is false for finite sources: 4 samples, packed in one buffer into two packs. Saved after the first of the two
packs (the source has ended), the resumed run does not report the end of the pass after the second one. -/
theorem C31_violated : (listD [1, 2, 3, 4]).ResumesExactly ∧ (listD [1, 2, 3, 4]).RestoresSamples ∧
    ¬ (packD (listD [1, 2, 3, 4]) 5 pairPacks false (plainFinal sumBatch)).ResumesUpToEnd := by
  refine ⟨listD_resumes _ _, listD_restores _ _, fun h => ?_⟩
  have hp : (packD (listD [1, 2, 3, 4]) 5 pairPacks false (plainFinal sumBatch)).Paused false
      (0, ⟨[], [⟨4, [.num 3]⟩, ⟨3, [.num 2]⟩], [2], 1, 1, .sub true 0 1 [[.num 1], [.num 0]] [] .done⟩) :=
    Dataset.after_paused (n := 30) (k := 1) (by rfl) .init
  rcases h _ hp with h | ⟨s', h1, h2⟩
  · exact Dataset.not_equiv 40 2 (by decide +kernel) (by decide +kernel) h
  · have h3 := Dataset.Trace.fin h1 .nil
    have h4 := ((packD (listD [1, 2, 3, 4]) 5 pairPacks false (plainFinal sumBatch)).eval_trace 20
      (0, ⟨[], [⟨4, [.num 3]⟩, ⟨3, [.num 2]⟩], [2], 1, 1, .sub true 0 1 [[.num 1], [.num 0]] [] .done⟩)).take 1
    have := h3.det h4 (by decide +kernel)
    revert this
    decide +kernel

/-- A generator function as final packer: gives the samples of the pack one by one. -/
def unpack : FinalFn Nat Nat := fun _ l => (l.map (·.content), .done)

/-- C31 is false for final packers that are generator functions, even with an endless source: saved between the two
samples made of one pack, the resumed run has lost the second one. -/
theorem C31_violated_generator : (streamD id).ResumesExactly ∧ (streamD id).RestoresSamples ∧ (streamD id).NeverEnds ∧
    ¬ (packD (streamD id) 2 pairPacks true unpack).ResumesExactly := by
  refine ⟨streamD_resumes _ _, streamD_restores _ _, streamD_never _ _, fun h => ?_⟩
  have hp : (packD (streamD id) 2 pairPacks true unpack).Paused false
      (2, ⟨[], [], [], 1, 1, .sub false 0 1 [[.num 1], [.num 0]] [0] .done⟩) :=
    Dataset.after_paused (n := 30) (k := 1) (by rfl) .init
  exact Dataset.not_equiv 30 1 (by decide +kernel) (by decide +kernel) (h _ hp)

/-- A worker whose own state is missing in the merged state (`None`) starts with two empty packs, whereas a new worker
starts by reading its source. -/
theorem C31_violated_missing_state :
    ((packD (listD [1, 2]) 2 pairPacks false (plainFinal sumBatch)).eval 30 (0, packResumeNone)).take 3 =
      [.item ⟨0, [.str "PackingDataset", .num 0]⟩, .item ⟨0, [.str "PackingDataset", .num 1]⟩,
       .item ⟨3, [.str "PackingDataset", .num 2, .tup [.num 1], .tup [.num 0]]⟩] ∧
    ((packD (listD [1, 2]) 2 pairPacks false (plainFinal sumBatch)).eval 30
      (packD (listD [1, 2]) 2 pairPacks false (plainFinal sumBatch)).init).take 1 =
      [.item ⟨3, [.str "PackingDataset", .num 0, .tup [.num 1], .tup [.num 0]]⟩] := by decide +kernel

/-! ## C34 for packs -/

/-- Packs are restored from their keys, for plain final packers and generator functions, whatever packs fail. -/
theorem C34_packing (D : Dataset σ (Smp C) κ) (size : Nat) (pre : PreFn C) (hsub : PreSub pre) (gen : Bool)
    (f : FinalFn C C') (hgen : gen = false → ∃ g, f = plainFinal g) (r : Bool) (hR : D.RestoresSamples r) :
    (packD D size pre gen f).RestoresSamples r := by
  rintro ⟨s, x⟩ a q hp h
  obtain ⟨h1, h2, h3, h4⟩ := pack_paused hsub hR hp
  refine WObs.emits (pack_inv D size pre hsub gen f r)
    (Z := fun a => (packD D size pre gen f).restoreSample a.key = some a) ?_ (wrap_obs.1 h) h1 h2
  rintro ⟨rb, pb, lens, i, j, c⟩ b x' hx h
  have hpre : ∀ (x : PackX C C') nx, prePack pre x nx ≠ .emit b x' := by
    intro x nx
    unfold prePack
    split
    · simp
    · split
      · simp
      · split <;> simp
  cases c with
  | check r => simp only [packW] at h; cases h
  | fill r =>
    simp only [packW] at h
    split at h
    · cases h
    · split at h
      · cases h
      · split at h
        · cases h
        · exact absurd h (hpre _ _)
  | ended => exact absurd h (hpre _ _)
  | final last =>
    cases lens with
    | nil => simp only [packW] at h; cases h
    | cons l ls => simp only [packW] at h; cases h
  | sub last idx k keys rest e =>
    cases rest with
    | nil => simp only [packW] at h; split at h <;> cases h
    | cons c cs =>
      simp only [packW] at h
      cases h
      obtain ⟨pack, pr, h5, h6, h7, h8, _⟩ := hx.sub _ _ _ _ _ _ rfl
      subst h6 h8
      have e : (keyTuples ((pack.map (·.key)).map .tup)).bind (fun ks => ks.mapM D.restoreSample) = some pack := by
        rw [keyTuples_map]
        exact mapM_restore_yields hR pack h5
      cases gen with
      | true =>
        simp only [packD, wrap, packW, packKey, if_true, List.singleton_append, e, h7]
        simp
      | false =>
        obtain ⟨g, rfl⟩ := hgen rfl
        have hpr : pr = [] := by
          unfold plainFinal at h7
          cases hg : g idx pack <;> rw [hg] at h7 <;> cases pr <;> simp_all
        subst hpr
        simp only [packD, wrap, packW, packKey, Bool.false_eq_true, if_false, List.nil_append, if_true, e, h7]
        simp
  | drain => simp only [packW] at h; split at h <;> cases h
  | dead => simp only [packW] at h; cases h

example : (packD (listD [1, 2, 3, 4]) 3 pairPacks true unpack).RestoresSamples :=
  C34_packing _ _ _ pairPacks_sub _ _ (by simp) _ (listD_restores _ _)

end Verif.Stream
