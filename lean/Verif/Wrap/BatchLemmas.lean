import Verif.Wrap.BatchModel
import Verif.Stream.Lockstep

/-! # Lemmas about BatchDataset -/

namespace Verif.Stream

variable {σ κ C C' : Type} {D : Dataset σ (Smp C) κ} {bs : Nat} {dl : Bool} {f : BatchFn C C'}

/-- The content of a successful batch. -/
def BatchRes.ok? : BatchRes C' → Option C'
  | .ok c => some c
  | _ => none

/-- The delivered batches, with stale keys `ks`. -/
def outB (f : BatchFn C C') : Nat → List (List Key) → List (List (Smp C)) → List (Smp C')
  | _, _, [] => []
  | i, ks, b :: bss =>
    match f i b with
    | .ok c => ⟨c, batchKey i (ks ++ b.map (·.key))⟩ :: outB f (i + 1) [] bss
    | _ => outB f (i + 1) (ks ++ b.map (·.key)) bss

/-- The stale keys left. -/
def staleB (f : BatchFn C C') : Nat → List (List Key) → List (List (Smp C)) → List (List Key)
  | _, ks, [] => ks
  | i, ks, b :: bss =>
    match f i b with
    | .ok _ => staleB f (i + 1) [] bss
    | _ => staleB f (i + 1) (ks ++ b.map (·.key)) bss

theorem outB_contents (f : BatchFn C C') (i : Nat) (ks : List (List Key)) (bss : List (List (Smp C))) :
    (outB f i ks bss).map (·.content) = (bss.zipIdx i).filterMap fun p => (f p.2 p.1).ok? := by
  induction bss generalizing i ks with
  | nil => rfl
  | cons b bss ih =>
    simp only [outB, List.zipIdx_cons]
    cases h : f i b <;> simp [BatchRes.ok?, h, ih]

theorem outB_ok (f : BatchFn C C') (g : Nat → List (Smp C) → C') (hf : ∀ i b, f i b = .ok (g i b)) (i : Nat)
    (bss : List (List (Smp C))) :
    outB f i [] bss = (bss.zipIdx i).map fun p => ⟨g p.2 p.1, batchKey p.2 (p.1.map (·.key))⟩ := by
  induction bss generalizing i with
  | nil => rfl
  | cons b bss ih => simp [outB, List.zipIdx_cons, hf, ih]

theorem outB_append (f : BatchFn C C') (i : Nat) (ks : List (List Key)) (bss css : List (List (Smp C))) :
    outB f i ks (bss ++ css) = outB f i ks bss ++ outB f (i + bss.length) (staleB f i ks bss) css := by
  induction bss generalizing i ks with
  | nil => simp [outB, staleB]
  | cons b bss ih =>
    simp only [List.cons_append, outB, staleB, List.length_cons]
    cases h : f i b <;> simp [ih, Nat.add_assoc, Nat.add_comm 1]

theorem batch_noReset : (batchW D bs dl f).NoReset := by
  rintro ⟨n, b, ks, c⟩ x' h
  cases c <;> simp only [batchW] at h <;> first | cases h | (split at h <;> cases h)

theorem batch_flush_trans (hf : ∀ i b, f i b ≠ .fatal) (i : Nat) (b : List (Smp C)) (ks : List (List Key)) (last : Bool) :
    (batchW D bs dl f).Trans ⟨i, b, ks ++ b.map (·.key), .flush last⟩ [] ((outB f i ks [b]).map .item)
      ⟨i + 1, [], staleB f i ks [b], if last then .done else .loop⟩ := by
  simp only [outB, staleB]
  cases h : f i b with
  | ok c =>
    refine .emit (W := batchW D bs dl f) (x := ⟨i, b, ks ++ b.map (·.key), .flush last⟩)
      (x' := ⟨i + 1, b, ks ++ b.map (·.key), .emitted last⟩) ?_ (.tau (W := batchW D bs dl f) ?_ .nil)
    · simp only [batchW, h]
    · rfl
  | skip =>
    refine .tau (W := batchW D bs dl f) (x := ⟨i, b, ks ++ b.map (·.key), .flush last⟩) ?_ .nil
    simp only [batchW, h]
  | fatal => exact absurd h (hf i b)

theorem batch_loop_trans (hf : ∀ i b, f i b ≠ .fatal) (xs : List (Smp C)) :
    ∀ (i : Nat) (cur : List (Smp C)) (ks : List (List Key)), cur.length < bs →
    ∃ bss rest, cur ++ xs = bss.flatten ++ rest ∧ (∀ b ∈ bss, b.length = bs) ∧ rest.length < bs ∧
      (batchW D bs dl f).Trans ⟨i, cur, ks ++ cur.map (·.key), .loop⟩ (xs.map .item)
        ((outB f i ks bss).map .item)
        ⟨i + bss.length, rest, staleB f i ks bss ++ rest.map (·.key), .loop⟩ := by
  induction xs with
  | nil =>
    intro i cur ks hc
    exact ⟨[], cur, by simp, by simp, hc, .nil⟩
  | cons a xs ih =>
    intro i cur ks hc
    by_cases hfull : cur.length + 1 = bs
    · obtain ⟨bss, rest, h1, h2, h3, h4⟩ := ih (i + 1) [] (staleB f i ks [cur ++ [a]]) (by simp only [List.length_nil]; omega)
      refine ⟨(cur ++ [a]) :: bss, rest, ?_, ?_, h3, ?_⟩
      · simpa using h1
      · intro b hb
        rcases List.mem_cons.1 hb with rfl | hb
        · simpa using hfull
        · exact h2 b hb
      · refine .pullItem (W := batchW D bs dl f) (x := ⟨i, cur, ks ++ cur.map (·.key), .loop⟩) rfl ?_
        simp only [hfull, if_true]
        have hb := batch_flush_trans (D := D) (bs := bs) (dl := dl) hf i (cur ++ [a]) ks false
        simp only [List.map_nil, List.append_nil, Bool.false_eq_true, if_false] at hb h4
        have := hb.append h4
        rw [List.nil_append, ← List.map_append] at this
        have e1 := outB_append f i ks [cur ++ [a]] bss
        simp only [List.singleton_append, List.length_singleton] at e1
        rw [← e1] at this
        have e2 : staleB f (i + 1) (staleB f i ks [cur ++ [a]]) bss = staleB f i ks ((cur ++ [a]) :: bss) := by
          simp only [staleB]
          cases f i (cur ++ [a]) <;> rfl
        rw [e2, Nat.add_assoc, Nat.add_comm 1] at this
        simpa [List.append_assoc] using this
    · obtain ⟨bss, rest, h1, h2, h3, h4⟩ := ih i (cur ++ [a]) ks (by simp only [List.length_append, List.length_singleton]; omega)
      refine ⟨bss, rest, by simpa using h1, h2, h3, ?_⟩
      refine .pullItem (W := batchW D bs dl f) (x := ⟨i, cur, ks ++ cur.map (·.key), .loop⟩) rfl ?_
      simp only [hfull, if_false]
      simpa [List.append_assoc] using h4

/-- Invariant: while computing, the keys are the stale ones and those of the batch. -/
theorem batch_inv (r : Bool) (hbs : 0 < bs) (hok : ∀ i b, (f i b).ok?.isSome) :
    WInv (Source.single D) (batchW D bs dl f) (D.Paused r)
      (fun x => match x.ctl with
        | .loop => x.batch.length < bs ∧ x.keys = x.batch.map (·.key) ∧ ∀ a ∈ x.batch, D.Yields r a
        | .flush last => x.keys = x.batch.map (·.key) ∧ (∀ a ∈ x.batch, D.Yields r a) ∧
            (last = true → ¬ D.NeverEnds r)
        | .emitted last => last = true → ¬ D.NeverEnds r
        | .done => ¬ D.NeverEnds r)
      (fun x => (x.ctl = .loop ∧ x.batch = [] ∧ x.keys = []) ∨
        ∃ last, x.ctl = .emitted last ∧ (last = true → ¬ D.NeverEnds r)) := by
  refine WInv.mk' batch_noReset ?_ ?_ ?_ ?_ ?_ ?_
  · rintro ⟨i, b, ks, c⟩ (⟨h1, h2, h3⟩ | ⟨last, h1, h2⟩) <;> simp only at * <;> subst h1
    · subst h2 h3; exact ⟨hbs, rfl, by simp⟩
    · exact h2
  · rintro ⟨i, b, ks, c⟩ a x' hx h
    cases c <;> simp only [batchW] at h <;> try (first | cases h | (split at h <;> cases h))
    exact .inr ⟨_, rfl, hx.2.2⟩
  · rintro ⟨i, b, ks, c⟩ x' hx h
    cases c <;> simp only [batchW] at h <;> try (first | cases h | (split at h <;> cases h))
    exact .inl ⟨rfl, rfl, rfl⟩
  · rintro ⟨i, b, ks, c⟩ x' hx h
    cases c with
    | loop => simp only [batchW] at h; cases h
    | flush last =>
      simp only [batchW] at h
      have := hok i b
      cases hfb : f i b <;> rw [hfb] at h this <;> cases h
      simp [BatchRes.ok?] at this
    | emitted last =>
      simp only [batchW] at h
      cases h
      cases last
      · exact ⟨hbs, rfl, by simp⟩
      · exact hx rfl
    | done => simp only [batchW] at h; cases h
  · rintro ⟨i, b, ks, c⟩ j e g hx h a ha
    cases c <;> simp only [batchW] at h <;> try (first | cases h | (split at h <;> cases h))
    simp only at hx
    have hmem : ∀ a' ∈ b ++ [a], D.Yields r a' := by
      intro a' ha'
      rcases List.mem_append.1 ha' with h | h
      · exact hx.2.2 a' h
      · rw [List.mem_singleton.1 h]; exact ha
    by_cases hfull : b.length + 1 = bs
    · simp only [hfull, if_true]
      exact ⟨by rw [hx.2.1]; simp, hmem, by simp⟩
    · simp only [hfull, if_false]
      exact ⟨by simp only [List.length_append, List.length_singleton]; omega, by rw [hx.2.1]; simp, hmem⟩
  · rintro ⟨i, b, ks, c⟩ j e g hx h hne
    cases c <;> simp only [batchW] at h <;> try (first | cases h | (split at h <;> cases h))
    simp only at hx
    by_cases hh : 0 < b.length ∧ dl = false
    · simp only [hh.1, hh.2, and_self, if_true]
      exact ⟨hx.2.1, hx.2.2, fun _ => hne⟩
    · rw [if_neg hh]
      exact hne

/-- Invariant for arbitrary batchers. -/
theorem batch_inv' (r : Bool) :
    WInv (Source.single D) (batchW D bs dl f) (D.Paused r)
      (fun x => (x.ctl = .emitted true ∨ x.ctl = .flush true ∨ x.ctl = .done) → ¬ D.NeverEnds r)
      (fun x => (x.ctl = .loop ∧ x.batch = [] ∧ x.keys = []) ∨
        ∃ last, x.ctl = .emitted last ∧ (last = true → ¬ D.NeverEnds r)) := by
  refine WInv.mk' batch_noReset ?_ ?_ ?_ ?_ ?_ ?_
  · rintro ⟨i, b, ks, c⟩ (⟨h1, h2, h3⟩ | ⟨last, h1, h2⟩) <;> simp only at * <;> subst h1
    · simp
    · rintro (h | h | h)
      · cases h; exact h2 rfl
      · cases h
      · cases h
  · rintro ⟨i, b, ks, c⟩ a x' hx h
    cases c <;> simp only [batchW] at h <;> try (first | cases h | (split at h <;> cases h))
    exact .inr ⟨_, rfl, fun hl => hx (by rw [hl]; simp)⟩
  · rintro ⟨i, b, ks, c⟩ x' hx h
    cases c <;> simp only [batchW] at h <;> try (first | cases h | (split at h <;> cases h))
    exact .inl ⟨rfl, rfl, rfl⟩
  · rintro ⟨i, b, ks, c⟩ x' hx h
    cases c with
    | loop => simp only [batchW] at h; cases h
    | flush last =>
      simp only [batchW] at h
      cases hfb : f i b <;> rw [hfb] at h <;> cases h
      cases last <;> simp at hx ⊢
      exact hx
    | emitted last =>
      simp only [batchW] at h
      cases h
      cases last <;> simp at hx ⊢
      exact hx
    | done => simp only [batchW] at h; cases h
  · rintro ⟨i, b, ks, c⟩ j e g hx h a ha
    cases c <;> simp only [batchW] at h <;> try (first | cases h | (split at h <;> cases h))
    by_cases hfull : b.length + 1 = bs
    · simp [hfull]
    · simp [hfull]
  · rintro ⟨i, b, ks, c⟩ j e g hx h hne
    exact fun _ => hne

theorem batch_paused {r : Bool} {p : σ × BatchX C} (h : (wrap D (batchW D bs dl f)).Paused r p) :
    D.Paused r p.1 ∧ ((p.2.ctl = .loop ∧ p.2.batch = [] ∧ p.2.keys = []) ∨
        ∃ last, p.2.ctl = .emitted last ∧ (last = true → ¬ D.NeverEnds r)) :=
  wrap_paused (batch_inv' r) (.inl ⟨rfl, rfl, rfl⟩) (fun _ _ => .inl ⟨rfl, rfl, rfl⟩)
    (fun _ _ _ => .inl ⟨rfl, rfl, rfl⟩) h

end Verif.Stream
