import Verif.Wrap.BatchLemmas
import Verif.Wrap.LengthLemmas
import Verif.Stream.Example
import Mathlib.Tactic.Ring

/-! # C25 - C27: batching -/

namespace Verif.Stream

variable {σ κ C C' : Type}

/-- `bss` cuts `xs` into batches of `bs`; what is left over is a smaller last batch or is dropped. -/
structure Batches (bs : Nat) (dropLast : Bool) (xs : List C) (bss : List (List C)) : Prop where
  concat : ∃ rest, xs = bss.flatten ++ rest ∧ rest.length < bs ∧ (dropLast = false → rest = [])
  full : ∀ b ∈ bss.dropLast, b.length = bs
  last : ∀ b ∈ bss, 0 < b.length ∧ b.length ≤ bs ∧ (dropLast = true → b.length = bs)

private theorem batch_pass_aux (D : Dataset σ (Smp C) κ) (bs : Nat) (hbs : 0 < bs) (dl : Bool) (f : BatchFn C C')
    (hf : ∀ i b, f i b ≠ .fatal) (xs : List (Smp C)) (s s' : σ) (hs : D.Pass s xs s') (i : Nat) :
    ∃ bss, Batches bs dl xs bss ∧
      (batchD D bs dl f).Pass (s, ⟨i, [], [], .loop⟩) (outB f i [] bss) (s', ⟨i + bss.length, [], [], .loop⟩) := by
  obtain ⟨bss, rest, h1, h2, h3, h4⟩ := batch_loop_trans (D := D) (bs := bs) (dl := dl) hf xs i [] [] (by simpa using hbs)
  simp only [List.nil_append, List.map_nil] at h1 h4
  by_cases hh : 0 < rest.length ∧ dl = false
  · refine ⟨bss ++ [rest], ⟨⟨[], by simpa using h1, by simpa using hbs, fun _ => rfl⟩, ?_, ?_⟩, ?_⟩
    · intro b hb; rw [List.dropLast_concat] at hb; exact h2 b hb
    · intro b hb
      rcases List.mem_append.1 hb with hb | hb
      · rw [h2 b hb]; exact ⟨hbs, Nat.le_refl _, fun _ => rfl⟩
      · rw [List.mem_singleton.1 hb]
        exact ⟨hh.1, Nat.le_of_lt h3, fun hd => by rw [hh.2] at hd; cases hd⟩
    · have h5 := batch_flush_trans (D := D) (bs := bs) (dl := dl) hf (i + bss.length) rest (staleB f i [] bss) true
      have h6 := h4.append (.pullFin (W := batchW D bs dl f) (g := ⟨i + bss.length, rest,
        staleB f i [] bss ++ rest.map (·.key), .flush true⟩) (by simp only [batchW, hh.1, hh.2, and_self, if_true]; rfl) h5)
      rw [← List.map_append, ← outB_append] at h6
      have := h6.run_halt (D := D) (x'' := ⟨i + (bss ++ [rest]).length, [], [], .loop⟩)
        (by simp [batchW, Nat.add_assoc]) hs
      exact this
  · refine ⟨bss, ⟨⟨rest, h1, h3, fun hd => ?_⟩, fun b hb => h2 b (List.dropLast_subset _ hb), fun b hb => ?_⟩, ?_⟩
    · by_contra hne
      exact hh ⟨List.length_pos_iff.2 hne, hd⟩
    · rw [h2 b hb]; exact ⟨hbs, Nat.le_refl _, fun _ => rfl⟩
    · have h6 := h4.append (.pullFin (W := batchW D bs dl f) (g := ⟨i + bss.length, [], [], .done⟩)
        (by simp only [batchW]; rw [if_neg hh]) .nil)
      rw [List.append_nil] at h6
      exact h6.run_halt (D := D) (x'' := ⟨i + bss.length, [], [], .loop⟩) (by simp [batchW]) hs

/-! ## C25 -/

/-- With a batcher that always succeeds: one pass cuts the source's pass `xs` into batches, the `n`-th being given to
the batcher with sample index `i + n`, and carries the keys of its samples. -/
theorem C25_batch_pass (D : Dataset σ (Smp C) κ) (bs : Nat) (hbs : 0 < bs) (dl : Bool) (f : BatchFn C C')
    (g : Nat → List (Smp C) → C') (hf : ∀ i b, f i b = .ok (g i b))
    (xs : List (Smp C)) (s s' : σ) (hs : D.Pass s xs s') (i : Nat) :
    ∃ bss, Batches bs dl xs bss ∧
      (batchD D bs dl f).Pass (s, ⟨i, [], [], .loop⟩)
        ((bss.zipIdx i).map fun p => ⟨g p.2 p.1, .str "BatchDataset" :: .num p.2 :: p.1.map fun a => .tup a.key⟩)
        (s', ⟨i + bss.length, [], [], .loop⟩) := by
  obtain ⟨bss, h1, h2⟩ := batch_pass_aux D bs hbs dl f (fun i b => by rw [hf]; simp) xs s s' hs i
  refine ⟨bss, h1, ?_⟩
  rw [outB_ok f g hf] at h2
  simpa [batchKey, Function.comp_def] using h2

/-- During a pass (also of an endless source): whatever is delivered are batches of exactly `bs` samples, as the source
delivers them. -/
theorem C25_batch_items (D : Dataset σ (Smp C) κ) (bs : Nat) (hbs : 0 < bs) (dl : Bool) (f : BatchFn C C')
    (g : Nat → List (Smp C) → C') (hf : ∀ i b, f i b = .ok (g i b))
    (bss : List (List (Smp C))) (hb : ∀ b ∈ bss, b.length = bs) (s s' : σ) (hs : D.Items s bss.flatten s') (i : Nat) :
    ∃ q, (batchD D bs dl f).Items (s, ⟨i, [], [], .loop⟩)
        ((bss.zipIdx i).map fun p => ⟨g p.2 p.1, .str "BatchDataset" :: .num p.2 :: p.1.map fun a => .tup a.key⟩) q := by
  obtain ⟨css, rest, h1, h2, h3, h4⟩ := batch_loop_trans (D := D) (bs := bs) (dl := dl) (f := f)
    (fun i b => by rw [hf]; simp) bss.flatten i [] [] (by simpa using hbs)
  have key : ∀ (bss css : List (List (Smp C))) (rest : List (Smp C)), (∀ b ∈ bss, b.length = bs) →
      (∀ b ∈ css, b.length = bs) → rest.length < bs → bss.flatten = css.flatten ++ rest → css = bss := by
    intro bss
    induction bss with
    | nil =>
      intro css rest _ hc _ he
      cases css with
      | nil => rfl
      | cons c css =>
        have := hc c (by simp)
        have hl := congrArg List.length he
        simp at hl
        omega
    | cons b bss ih =>
      intro css rest hb hc hr he
      cases css with
      | nil =>
        have := hb b (by simp)
        have hl := congrArg List.length he
        simp at hl
        omega
      | cons c css =>
        have e1 := hb b (by simp)
        have e2 := hc c (by simp)
        simp only [List.flatten_cons, List.append_assoc] at he
        obtain ⟨e3, e4⟩ := List.append_inj he (by omega)
        rw [e3, ih css rest (fun b h => hb b (by simp [h])) (fun b h => hc b (by simp [h])) hr e4]
  have hcss := key bss css rest hb h2 h3 (by simpa using h1)
  subst hcss
  simp only [List.map_nil, List.append_nil] at h4
  rw [outB_ok f g hf] at h4
  obtain ⟨q, hq⟩ := h4.run_some (D := D) hs
  exact ⟨q, by simpa [batchKey, batchD, Dataset.Items, Function.comp_def] using hq⟩

/-- A batcher for examples: the sum. -/
def sumBatch : BatchFn Nat Nat := fun _ b => .ok (b.map (·.content)).sum

example : ((batchD (listD [1, 2, 3]) 2 false sumBatch).eval 30 (batchD (listD [1, 2, 3]) 2 false sumBatch).init).take 3
    = [.item ⟨3, [.str "BatchDataset", .num 0, .tup [.num 0], .tup [.num 1]]⟩,
       .item ⟨3, [.str "BatchDataset", .num 1, .tup [.num 2]]⟩, .fin] := by decide

example : ((batchD (listD [1, 2, 3]) 2 true sumBatch).eval 30 (batchD (listD [1, 2, 3]) 2 true sumBatch).init).take 2
    = [.item ⟨3, [.str "BatchDataset", .num 0, .tup [.num 0], .tup [.num 1]]⟩, .fin] := by decide

/-! ## C26 -/

/-- Whatever batches fail (skip or handled exception): the contents of the delivered batches are those of the successful
ones among the batches of C25, each computed from its own samples and index only. A successful batch whose predecessor
did not fail carries exactly the keys of its samples. -/
theorem C26_batch_failures_partial (D : Dataset σ (Smp C) κ) (bs : Nat) (hbs : 0 < bs) (dl : Bool) (f : BatchFn C C')
    (hf : ∀ i b, f i b ≠ .fatal) (xs : List (Smp C)) (s s' : σ) (hs : D.Pass s xs s') (i : Nat) :
    ∃ bss ys, Batches bs dl xs bss ∧
      (batchD D bs dl f).Pass (s, ⟨i, [], [], .loop⟩) ys (s', ⟨i + bss.length, [], [], .loop⟩) ∧
      ys.map (·.content) = (bss.zipIdx i).filterMap (fun p => (f p.2 p.1).ok?) ∧
      ∀ n b c, bss[n]? = some b → f (i + n) b = .ok c →
        (n = 0 ∨ ∃ b' c', bss[n - 1]? = some b' ∧ f (i + (n - 1)) b' = .ok c') →
        ⟨c, .str "BatchDataset" :: .num (i + n) :: b.map fun a => .tup a.key⟩ ∈ ys := by
  obtain ⟨bss, h1, h2⟩ := batch_pass_aux D bs hbs dl f hf xs s s' hs i
  refine ⟨bss, _, h1, h2, outB_contents f i [] bss, ?_⟩
  intro n b c hn hb hpre
  obtain ⟨hlt, hget⟩ := List.getElem?_eq_some_iff.1 hn
  have hsplit : bss = bss.take n ++ (b :: bss.drop (n + 1)) := by
    rw [← hget, ← List.drop_eq_getElem_cons hlt, List.take_append_drop]
  have hlen : (bss.take n).length = n := by simp; omega
  have hstale : staleB f i [] (bss.take n) = [] := by
    rcases hpre with rfl | ⟨b', c', hb', hc'⟩
    · rfl
    · cases n with
      | zero => rfl
      | succ m =>
        simp only [Nat.add_sub_cancel] at hb' hc'
        rw [List.take_add_one, hb', Option.toList_some]
        have happ : ∀ (i : Nat) ks (l : List (List (Smp C))) (b' : List (Smp C)), f (i + l.length) b' = .ok c' →
            staleB f i ks (l ++ [b']) = [] := by
          intro i ks l b'
          induction l generalizing i ks with
          | nil => intro h; simp only [List.length_nil, Nat.add_zero] at h; simp [staleB, h]
          | cons d l ih =>
            intro h
            rw [List.length_cons, Nat.add_comm l.length, ← Nat.add_assoc] at h
            simp only [List.cons_append, staleB]
            cases f i d <;> exact ih _ _ h
        apply happ
        have : (bss.take m).length = m := by simp; omega
        rw [this]; exact hc'
  rw [hsplit, outB_append, hlen, hstale]
  simp only [outB, hb, batchKey, List.nil_append, List.map_map, List.mem_append, List.mem_cons]
  right; left; rfl

/-- The claim about restore keys is false after a failure: the keys of the failed batch are attached to the next batch,
which then cannot be restored from its key. -/
theorem C26_violated : ∃ f : BatchFn Nat Nat, ∃ t a t',
    (batchD (listD [1, 2]) 1 false f).Paused false t ∧
    Obs (batchD (listD [1, 2]) 1 false f).step t (.item a t') ∧
    a.key = [.str "BatchDataset", .num 1, .tup [.num 0], .tup [.num 1]] ∧
    (batchD (listD [1, 2]) 1 false f).restoreSample a.key ≠ some a := by
  refine ⟨fun i b => if i = 0 then .skip else .ok (b.map (·.content)).sum, _,
    ⟨2, [.str "BatchDataset", .num 1, .tup [.num 0], .tup [.num 1]]⟩, _, .init,
    (.skip rfl (.skip rfl (.skip rfl (.item rfl)))), rfl, by decide⟩

/-! ## C27 -/

/-- The number of batches that `k` samples give. -/
def nBatches (k bs : Nat) (dropLast : Bool) : Nat := if dropLast then k / bs else (k + bs - 1) / bs

/-- `nBatches` is the number of batches of C25. -/
theorem nBatches_eq {bs : Nat} {dl : Bool} {xs : List C} {bss : List (List C)} (hbs : 0 < bs)
    (h : Batches bs dl xs bss) : bss.length = nBatches xs.length bs dl := by
  obtain ⟨⟨rest, h1, h2, h3⟩, h4, h5⟩ := h
  have flat : ∀ (l : List (List C)), (∀ b ∈ l, b.length = bs) → l.flatten.length = l.length * bs := by
    intro l hl
    induction l with
    | nil => simp
    | cons b l ih =>
      simp only [List.flatten_cons, List.length_append, List.length_cons, hl b (by simp),
        ih (fun b hb => hl b (by simp [hb])), Nat.add_mul, Nat.one_mul]
      omega
  cases dl with
  | true =>
    simp only [nBatches, if_true]
    rw [h1, List.length_append, flat bss fun b hb => (h5 b hb).2.2 rfl]
    rw [Nat.mul_comm, Nat.mul_add_div hbs, Nat.div_eq_of_lt h2, Nat.add_zero]
  | false =>
    have hr := h3 rfl
    subst hr
    simp only [nBatches, Bool.false_eq_true, if_false, List.append_nil] at *
    subst h1
    rcases List.eq_nil_or_concat bss with rfl | ⟨pre, b, rfl⟩
    · simp only [List.flatten_nil, List.length_nil, Nat.zero_add]
      rw [Nat.div_eq_of_lt (by omega)]
    · have hb := h5 b (by simp)
      simp only [List.concat_eq_append, List.dropLast_concat] at h4
      simp only [List.concat_eq_append, List.flatten_append, List.length_append, List.flatten_singleton, flat pre h4,
        List.length_singleton]
      rw [show pre.length * bs + b.length + bs - 1 = bs * pre.length + (b.length + bs - 1) by rw [Nat.mul_comm]; omega]
      rw [Nat.mul_add_div hbs]
      congr 1
      symm
      exact (Nat.div_eq_iff hbs).2 ⟨by omega, by omega⟩

private theorem nBatches_false (k bs : Nat) (hbs : 0 < bs) :
    nBatches k bs false = k / bs + if k % bs ≠ 0 then 1 else 0 := by
  simp only [nBatches, Bool.false_eq_true, if_false]
  have hk := Nat.div_add_mod k bs
  have hm := Nat.mod_lt k hbs
  rw [Nat.div_eq_iff hbs]
  split
  · next h =>
    have : (k / bs + 1) * bs = bs * (k / bs) + bs := by rw [Nat.add_mul, Nat.mul_comm]; simp
    constructor <;> omega
  · next h =>
    have : (k / bs + 0) * bs = bs * (k / bs) := by rw [Nat.mul_comm]; simp
    constructor <;> omega

/-- `len` is the number of batches of all workers together if incomplete batches are dropped, or if the samples are
distributed evenly, or for batch size 1. Missing: the remaining cases (false in general, see `C27_violated`). -/
theorem C27_batch_len_partial (n nw bs : Nat) (dl : Bool) (hbs : 0 < bs)
    (h : dl = true ∨ n % max nw 1 = 0 ∨ bs = 1) :
    batchLen n nw bs dl = ∑ w ∈ Finset.range (max nw 1), nBatches (localShare n nw w) bs dl := by
  have hshare : ∀ w, localShare n nw w = n / max nw 1 + if w < n % max nw 1 then 1 else 0 := by
    intro w
    simp only [localShare]
    by_cases hn : nw ≤ 1
    · have : max nw 1 = 1 := by omega
      simp [hn, Nat.mod_one]
    · have : max nw 1 = nw := by omega
      simp [hn, this]
  have hr := Nat.mod_lt n (show 0 < max nw 1 by omega)
  have hsum : ∀ (m r : Nat) (A B : Nat), r ≤ m → (∑ w ∈ Finset.range m, if w < r then A else B) = B * (m - r) + A * r := by
    intro m r A B hrm
    induction m with
    | zero => have : r = 0 := by omega
              subst this; simp
    | succ m ih =>
      rw [Finset.sum_range_succ]
      by_cases hm : r ≤ m
      · rw [ih hm, if_neg (by omega), show m + 1 - r = (m - r) + 1 by omega]; ring
      · have : r = m + 1 := by omega
        subst this
        rw [if_pos (by omega)]
        have : (∑ w ∈ Finset.range m, if w < m + 1 then A else B) = ∑ w ∈ Finset.range m, A := by
          apply Finset.sum_congr rfl
          intro w hw
          rw [if_pos (by have := Finset.mem_range.1 hw; omega)]
        rw [this]
        simp
        ring
  have e : ∀ w, nBatches (localShare n nw w) bs dl =
      if w < n % max nw 1 then nBatches (n / max nw 1 + 1) bs dl else nBatches (n / max nw 1) bs dl := by
    intro w
    rw [hshare]
    split <;> rfl
  simp only [e]
  rw [hsum _ _ _ _ (Nat.le_of_lt hr)]
  simp only [batchLen]
  cases dl with
  | true => simp [nBatches]
  | false =>
    rw [nBatches_false _ _ hbs, nBatches_false _ _ hbs]
    rcases h with h | h | h
    · cases h
    · simp [h]
    · subst h; simp [Nat.mod_one]

/-- C27 is false: 3 samples, 2 workers, batches of 2. The workers yield one batch each, the length is 3. -/
theorem C27_violated : batchLen 3 2 2 false = 3 ∧
    (∑ w ∈ Finset.range 2, nBatches (localShare 3 2 w) 2 false) = 2 := by decide

/-! ## Resuming -/

/-- A batched dataset (any batcher, failing or not) resumes exactly if its source does, except that after the last,
incomplete batch of a pass the end of the pass is not reported again. -/
theorem C51_batch_resumes (D : Dataset σ (Smp C) κ) (bs : Nat) (dl : Bool) (f : BatchFn C C') (hD : D.ResumesExactly) :
    (batchD D bs dl f).ResumesUpToEnd := by
  rintro ⟨s, ⟨i, b, ks, c⟩⟩ h
  obtain ⟨h1, h2⟩ := batch_paused h
  have e2 : (wrap D (batchW D bs dl f)).Equiv (s, ⟨i, [], [], .loop⟩) (D.resume (D.save s), ⟨i, [], [], .loop⟩) :=
    wrap_equiv batch_noReset (hD s h1) _
  rcases h2 with ⟨hc, hb, hk⟩ | ⟨last, hc, _⟩ <;> simp only at hc
  · simp only at hb hk; subst hc hb hk; exact .inl e2
  · subst hc
    cases last with
    | false => exact .inl ((wrap_equiv_tau (by rfl)).trans e2)
    | true => exact .inr ⟨(s, ⟨i, [], [], .loop⟩), wrap_obs.2 (.tau (by rfl) (.halt (by rfl))), e2⟩

/-- With an endless source (as in training) it resumes exactly. -/
theorem C51_batch_resumes_endless (D : Dataset σ (Smp C) κ) (bs : Nat) (dl : Bool) (f : BatchFn C C')
    (hD : D.ResumesExactly) (hN : D.NeverEnds) : (batchD D bs dl f).ResumesExactly := by
  rintro ⟨s, ⟨i, b, ks, c⟩⟩ h
  obtain ⟨h1, h2⟩ := batch_paused h
  have e2 : (wrap D (batchW D bs dl f)).Equiv (s, ⟨i, [], [], .loop⟩) (D.resume (D.save s), ⟨i, [], [], .loop⟩) :=
    wrap_equiv batch_noReset (hD s h1) _
  rcases h2 with ⟨hc, hb, hk⟩ | ⟨last, hc, hl⟩ <;> simp only at hc
  · simp only at hb hk; subst hc hb hk; exact e2
  · subst hc
    cases last with
    | false => exact (wrap_equiv_tau (by rfl)).trans e2
    | true => exact absurd hN (hl rfl)

example : (batchD (streamD id) 4 false sumBatch).ResumesExactly :=
  C51_batch_resumes_endless _ _ _ _ (streamD_resumes _ _) (streamD_never _ _)

/-- A batched endless source never ends. -/
theorem batch_neverEnds (D : Dataset σ (Smp C) κ) (bs : Nat) (dl : Bool) (f : BatchFn C C')
    (hN : D.NeverEnds) : (batchD D bs dl f).NeverEnds := by
  rintro ⟨s, x⟩ q hp h
  obtain ⟨h1, h2⟩ := batch_paused hp
  have H := batch_inv' (D := D) (bs := bs) (dl := dl) (f := f) false
  have h3 := H.resume_to _ h2
  replace h := wrap_obs.1 h
  clear h2 hp
  generalize ho : Out.fin q = o at h
  induction h with
  | emit h => cases ho
  | @halt s x x' h =>
    obtain ⟨i, b, ks, c⟩ := x
    cases c <;> simp only [batchW] at h <;> try (first | cases h | (split at h <;> cases h))
    exact h3 (.inr (.inr rfl)) hN
  | raise h => cases ho
  | tau h _ ih => exact ih h1 (H.tau _ _ h3 h) ho
  | reset h => exact absurd h (batch_noReset _ _)
  | pullItem h hs _ ih =>
    obtain ⟨h4, h5⟩ := H.pullItem _ _ _ _ h3 h _ _ _ h1 hs
    exact ih h5 h4 ho
  | pullFin h hs _ ih =>
    obtain ⟨h4, h5⟩ := H.pullFin _ _ _ _ h3 h _ _ h1 hs
    exact ih h5 h4 ho
  | pullErr h => cases ho

/-! ## C34 for batches -/

theorem keyTuples_map (ks : List (List Key)) : keyTuples (ks.map .tup) = some ks := by
  induction ks with
  | nil => rfl
  | cons k ks ih =>
    simp only [keyTuples, List.map_cons, List.mapM_cons] at ih ⊢
    rw [ih]; rfl

theorem mapM_restore_yields {D : Dataset σ (Smp C) κ} {r : Bool} (hD : D.RestoresSamples r) (b : List (Smp C))
    (hb : ∀ a ∈ b, D.Yields r a) : (b.map (·.key)).mapM D.restoreSample = some b := by
  induction b with
  | nil => rfl
  | cons a b ih =>
    obtain ⟨s, s', h1, h2⟩ := hb a (by simp)
    simp only [List.map_cons, List.mapM_cons, hD _ _ _ h1 h2]
    rw [ih fun a h => hb a (by simp [h])]; rfl

/-- Batches are restored from their keys if the batcher never fails (with failures: `C26_violated`). -/
theorem C34_batch (D : Dataset σ (Smp C) κ) (bs : Nat) (hbs : 0 < bs) (dl : Bool) (f : BatchFn C C') (r : Bool)
    (hok : ∀ i b, (f i b).ok?.isSome) (hD : D.RestoresSamples r) : (batchD D bs dl f).RestoresSamples r := by
  rintro ⟨s, x⟩ a q hp h
  have H := batch_inv (D := D) (bs := bs) (dl := dl) (f := f) r hbs hok
  obtain ⟨h1, h2⟩ := batch_paused hp
  refine WObs.emits H (Z := fun a => (batchD D bs dl f).restoreSample a.key = some a) ?_ (wrap_obs.1 h) h1
    (H.resume_to _ h2)
  rintro ⟨i, b, ks, c⟩ a x' hx ha
  cases c <;> simp only [batchW] at ha <;> try (first | cases ha | (split at ha <;> cases ha))
  next hfb =>
  obtain ⟨h3, h4, _⟩ := hx
  simp only at h3 h4
  subst h3
  have e : (keyTuples ((b.map (·.key)).map .tup)).bind (fun ks => ks.mapM D.restoreSample) = some b := by
    rw [keyTuples_map]
    exact mapM_restore_yields hD b h4
  simp only [batchD, wrap, batchW, batchKey, if_true, e, hfb]

example : (batchD (listD [1, 2, 3]) 2 false sumBatch).RestoresSamples :=
  C34_batch _ _ (by omega) _ _ _ (fun _ _ => rfl) (listD_restores _ _)

end Verif.Stream
