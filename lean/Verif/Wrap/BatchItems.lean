import Verif.Wrap.BatchProps
import Verif.Stream.History

/-! # What a batched endless dataset delivers -/

namespace Verif.Stream

variable {σ κ C C' : Type} {D : Dataset σ (Smp C) κ} {bs : Nat} {dl : Bool} {f : BatchFn C C'}

/-- The samples of the current batch, if it is still to be delivered. -/
def BatchX.open' (x : BatchX C) : List (Smp C) :=
  match x.ctl with
  | .loop => x.batch
  | .flush _ => x.batch
  | _ => []

/-- In the first loop: the current batch is not full, or full and about to be delivered. -/
def BatchX.Filling (bs : Nat) (x : BatchX C) : Prop :=
  match x.ctl with
  | .loop => x.batch.length < bs
  | .flush last => last = false ∧ x.batch.length = bs
  | .emitted last => last = false
  | .done => False

theorem batch_trans_inv (hbs : 0 < bs) {x x' : BatchX C} {es : List (Ev (Smp C))} {os : List (Ev (Smp C'))}
    (h : (batchW D bs dl f).Trans x es os x') (hx : x.Filling bs) (xs : List (Smp C)) (he : es = xs.map .item) :
    ∃ bss : List (List (Smp C)), x.open' ++ xs = bss.flatten ++ x'.open' ∧ (∀ b ∈ bss, b.length = bs) ∧
      (itemsOf os).map (·.content) = (bss.zipIdx x.idx).filterMap fun p => (f p.2 p.1).ok? := by
  induction h generalizing xs with
  | @nil x =>
    have : xs = [] := by
      cases xs with
      | nil => rfl
      | cons a xs => cases he
    subst this
    exact ⟨[], by simp, by simp, rfl⟩
  | @emit x b x1 es os x2 h _ ih =>
    obtain ⟨i, b', ks, c⟩ := x
    cases c <;> simp only [batchW] at h <;> try (first | cases h | (split at h <;> cases h))
    next cc hfb _ =>
    obtain ⟨h1, h2⟩ := hx
    simp only at h1 h2
    subst h1
    obtain ⟨bss, g1, g2, g3⟩ := ih rfl xs he
    refine ⟨b' :: bss, ?_, ?_, ?_⟩
    · simp only [BatchX.open', List.nil_append] at g1
      simp [BatchX.open', g1]
    · intro b hb
      rcases List.mem_cons.1 hb with rfl | hb
      · exact h2
      · exact g2 b hb
    · simp only [itemsOf, List.map_cons, List.zipIdx_cons, g3]
      simp [hfb, BatchRes.ok?]
  | @halt x x1 es os x2 h _ ih =>
    obtain ⟨i, b', ks, c⟩ := x
    cases c <;> simp only [batchW] at h <;> try (first | cases h | (split at h <;> cases h))
    exact hx.elim
  | @tau x x1 es os x2 h _ ih =>
    obtain ⟨i, b', ks, c⟩ := x
    cases c <;> simp only [batchW] at h <;> try (first | cases h | (split at h <;> cases h))
    · next hfb _ =>
      obtain ⟨h1, h2⟩ := hx
      simp only at h1 h2
      subst h1
      obtain ⟨bss, g1, g2, g3⟩ := ih hbs xs he
      refine ⟨b' :: bss, ?_, ?_, ?_⟩
      · simp only [BatchX.open', List.nil_append, Bool.false_eq_true, if_false] at g1
        simp [BatchX.open', g1]
      · intro b hb
        rcases List.mem_cons.1 hb with rfl | hb
        · exact h2
        · exact g2 b hb
      · rw [g3, List.zipIdx_cons]
        simp [hfb, BatchRes.ok?]
    · next last _ =>
      have h1 : last = false := hx
      subst h1
      exact ih hbs xs he
  | @pullItem x g e a es os x2 h _ ih =>
    obtain ⟨i, b', ks, c⟩ := x
    cases c <;> simp only [batchW] at h <;> try (first | cases h | (split at h <;> cases h))
    cases xs with
    | nil => cases he
    | cons a' xs =>
      simp only [List.map_cons, List.cons.injEq, Ev.item.injEq] at he
      obtain ⟨rfl, he⟩ := he
      have hx : b'.length < bs := hx
      by_cases hfull : b'.length + 1 = bs
      · obtain ⟨bss, g1, g2, g3⟩ := ih (by simp only [hfull, if_true]; exact ⟨rfl, by simpa using hfull⟩) xs he
        refine ⟨bss, ?_, g2, g3⟩
        rw [← g1]
        simp [BatchX.open', hfull]
      · obtain ⟨bss, g1, g2, g3⟩ := ih (by simp only [hfull, if_false]; show (b' ++ [a]).length < bs; simp; omega) xs he
        refine ⟨bss, ?_, g2, g3⟩
        rw [← g1]
        simp [BatchX.open', hfull]
  | pullFin h => cases xs <;> cases he

/-- What a batched dataset over an endless source has delivered, at any point, are the results (if any) of the batch function for consecutive batches of exactly `bs` samples;
all samples taken from the source are in these batches. -/
theorem batch_items_inv (hbs : 0 < bs) (hN : D.NeverEnds) {ys : List (Smp C')} {q : σ × BatchX C}
    (h : (batchD D bs dl f).Items (batchD D bs dl f).init ys q) :
    ∃ bss : List (List (Smp C)), D.Items D.init bss.flatten q.1 ∧ (∀ b ∈ bss, b.length = bs) ∧
      ys.map (·.content) = (bss.zipIdx 0).filterMap fun p => (f p.2 p.1).ok? := by
  obtain ⟨es, h1, h2⟩ := run_inv batch_noReset h
  obtain ⟨h3, h4⟩ := Dataset.Run.items_of_neverEnds hN .init h1
  obtain ⟨bss, g1, g2, g3⟩ := batch_trans_inv hbs h2 (show (0 : Nat) < bs from hbs) _ h4
  have hq : q.2.open' = [] := by
    have hp := (batch_paused (r := false) (h.paused .init)).2
    obtain ⟨s, ⟨i, b, ks, c⟩⟩ := q
    rcases hp with ⟨hc, hb, _⟩ | ⟨last, hc, _⟩
    · simp only at hc hb; subst hc hb; rfl
    · simp only at hc; subst hc; rfl
  rw [hq, List.append_nil] at g1
  have g1 : itemsOf es = bss.flatten := g1
  rw [g1] at h3
  rw [Dataset.itemsOf_map] at g3
  exact ⟨bss, h3, g2, g3⟩

end Verif.Stream
