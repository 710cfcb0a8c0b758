import Verif.Wrap.LengthLemmas
import Verif.Wrap.SimpleProps

/-! # C18 - C23: limits, virtual epochs, repetition -/

namespace Verif.Stream

variable {σ κ α C : Type}

/-! ## C18: Limit -/

/-- The shares of the workers add up to the requested length. -/
theorem C18_shares (length nw : Nat) : (∑ w ∈ Finset.range (max nw 1), localShare length nw w) = length :=
  localShare_sum length nw

/-- Shares of different workers differ by at most one. -/
theorem C18_shares_balanced (length nw w v : Nat) : localShare length nw w ≤ localShare length nw v + 1 := by
  simp only [localShare]
  split
  · omega
  · split <;> split <;> omega

/-- As `C18_limit_pass`, and the source has been reset. -/
theorem C18_limit_pass_reset (D : Dataset σ α κ) (length nw w : Nat) (ra : Bool) (xs : List α) (s s' : σ)
    (hs : D.Pass s xs s') :
    ∃ s'', (limitD D length nw w ra).Pass (s, ⟨0, .start⟩) (xs.take (localShare length nw w)) (s'', ⟨0, .start⟩) ∧
      ∃ t, s'' = D.reset t := by
  generalize hl : localShare length nw w = lim
  simp only [limitD, hl]
  by_cases hx : xs.length ≤ lim
  · rw [List.take_of_length_le hx]
    by_cases h0 : lim = 0
    · subst h0
      have : xs = [] := by cases xs <;> simp_all
      subst this
      obtain ⟨s'', hre, h2⟩ := limit_finish_run (D := D) (lim := 0) (ra := ra) (rs := D.restoreSample)
        (has := D.hasSamples && decide (0 < length)) (s := s) (n := 0)
      exact ⟨s'', .fin (wrap_obs.2 (.tau (by rfl) (wrap_obs.1 h2))) .nil, hre.elim (fun e => ⟨_, e⟩) fun e => ⟨_, e⟩⟩
    · have h1 := limit_loop_trans (lim := lim) (ra := ra) (rs := D.restoreSample)
        (has := D.hasSamples && decide (0 < length)) xs 0 (by omega)
      obtain ⟨t, ht, hf⟩ := Dataset.pass_iff.1 hs
      obtain ⟨s'', hre, h2⟩ := limit_finish_run (D := D) (lim := lim) (ra := ra) (rs := D.restoreSample)
        (has := D.hasSamples && decide (0 < length)) (s := s') (n := 0 + xs.length)
      refine ⟨s'', (Wrapper.Trans.tau ?_ h1).run_append ht (by simp)
        (.fin (wrap_obs.2 (.pullFin (by rfl) hf (wrap_obs.1 h2))) .nil), hre.elim (fun e => ⟨_, e⟩) fun e => ⟨_, e⟩⟩
      simp only [limitW, Nat.pos_of_ne_zero h0, if_true]
  · have hlt : lim < xs.length := by omega
    obtain ⟨a, rest, hsplit⟩ : ∃ a rest, xs = xs.take lim ++ a :: rest :=
      ⟨xs[lim], xs.drop (lim + 1), by rw [← List.drop_eq_getElem_cons hlt, List.take_append_drop]⟩
    obtain ⟨t, ht, hf⟩ := Dataset.pass_iff.1 hs
    rw [hsplit] at ht
    unfold Dataset.Items at ht
    rw [List.map_append] at ht
    obtain ⟨t1, ht1, ht2⟩ := Dataset.Run.append_inv ht
    have hlen : (xs.take lim).length = lim := by rw [List.length_take]; omega
    by_cases h0 : lim = 0
    · subst h0
      obtain ⟨s'', hre, h2⟩ := limit_finish_run (D := D) (lim := 0) (ra := ra) (rs := D.restoreSample)
        (has := D.hasSamples && decide (0 < length)) (s := s) (n := 0)
      exact ⟨s'', .fin (wrap_obs.2 (.tau (by rfl) (wrap_obs.1 h2))) .nil, hre.elim (fun e => ⟨_, e⟩) fun e => ⟨_, e⟩⟩
    · have h1 := limit_loop_trans (lim := lim) (ra := ra) (rs := D.restoreSample)
        (has := D.hasSamples && decide (0 < length)) (xs.take lim) 0 (by omega)
      cases ht2 with
      | @item _ _ t2 _ _ h3 h4 =>
        obtain ⟨s'', hre, h2⟩ := limit_finish_run (D := D) (lim := lim) (ra := ra) (rs := D.restoreSample)
          (has := D.hasSamples && decide (0 < length)) (s := t2) (n := 0 + (xs.take lim).length)
        refine ⟨s'', (Wrapper.Trans.tau ?_ h1).run_append ht1 (by simp)
          (.fin (wrap_obs.2 (.pullItem (by rfl) h3 (.tau ?_ (wrap_obs.1 h2)))) .nil), hre.elim (fun e => ⟨_, e⟩) fun e => ⟨_, e⟩⟩
        · simp only [limitW, Nat.pos_of_ne_zero h0, if_true]
        · simp only [limitW, hlen, Nat.zero_add, Nat.lt_irrefl, if_false]

/-- If the source's pass is `xs`, the limited pass consists of the first `share` samples of it (of all if there
are fewer), and the limited dataset is ready for another pass. -/
theorem C18_limit_pass (D : Dataset σ α κ) (length nw w : Nat) (ra : Bool) (xs : List α) (s s' : σ)
    (hs : D.Pass s xs s') :
    ∃ s'', (limitD D length nw w ra).Pass (s, ⟨0, .start⟩) (xs.take (localShare length nw w)) (s'', ⟨0, .start⟩) :=
  let ⟨s'', h, _⟩ := C18_limit_pass_reset D length nw w ra xs s s' hs
  ⟨s'', h⟩

/-- If the source (possibly endless) delivers more samples than the share, exactly the first `share` ones come out
and then the limited pass ends. -/
theorem C18_limit_items (D : Dataset σ α κ) (length nw w : Nat) (ra : Bool) (xs : List α) (s s' : σ)
    (hs : D.Items s xs s') (hx : xs.length = localShare length nw w + 1) :
    ∃ s'', (limitD D length nw w ra).Pass (s, ⟨0, .start⟩) (xs.take (localShare length nw w)) (s'', ⟨0, .start⟩) := by
  generalize hl : localShare length nw w = lim at *
  simp only [limitD, hl]
  have hlt : lim < xs.length := by omega
  obtain ⟨a, rest, hsplit⟩ : ∃ a rest, xs = xs.take lim ++ a :: rest :=
    ⟨xs[lim], xs.drop (lim + 1), by rw [← List.drop_eq_getElem_cons hlt, List.take_append_drop]⟩
  rw [hsplit] at hs
  unfold Dataset.Items at hs
  rw [List.map_append] at hs
  obtain ⟨t1, ht1, ht2⟩ := Dataset.Run.append_inv hs
  have hlen : (xs.take lim).length = lim := by rw [List.length_take]; omega
  by_cases h0 : lim = 0
  · subst h0
    obtain ⟨s'', _, h2⟩ := limit_finish_run (D := D) (lim := 0) (ra := ra) (rs := D.restoreSample)
      (has := D.hasSamples && decide (0 < length)) (s := s) (n := 0)
    exact ⟨s'', .fin (wrap_obs.2 (.tau (by rfl) (wrap_obs.1 h2))) .nil⟩
  · have h1 := limit_loop_trans (lim := lim) (ra := ra) (rs := D.restoreSample)
      (has := D.hasSamples && decide (0 < length)) (xs.take lim) 0 (by omega)
    cases ht2 with
    | @item _ _ t2 _ _ h3 h4 =>
      obtain ⟨s'', _, h2⟩ := limit_finish_run (D := D) (lim := lim) (ra := ra) (rs := D.restoreSample)
        (has := D.hasSamples && decide (0 < length)) (s := t2) (n := 0 + (xs.take lim).length)
      refine ⟨s'', (Wrapper.Trans.tau ?_ h1).run_append ht1 (by simp)
        (.fin (wrap_obs.2 (.pullItem (by rfl) h3 (.tau ?_ (wrap_obs.1 h2)))) .nil)⟩
      · simp only [limitW, Nat.pos_of_ne_zero h0, if_true]
      · simp only [limitW, hlen, Nat.zero_add, Nat.lt_irrefl, if_false]

/-- Worker 1 of 2 of a limit of 3 over a pass of 4 samples: one sample, in every pass. -/
example : ((limitD (listD [1, 2, 3, 4]) 3 2 1 true).eval 40 (limitD (listD [1, 2, 3, 4]) 3 2 1 true).init).take 4
    = [.item ⟨1, [.num 0]⟩, .fin, .item ⟨1, [.num 0]⟩, .fin] := by decide

/-! ## C19: resuming a limit -/

/-- A limited dataset is brought back to its initial behaviour by `restore_state(None)` if its source is. -/
theorem limit_resets (D : Dataset σ α κ) (length nw w : Nat) (ra : Bool) (hD : D.ResetsToInit) :
    (limitD D length nw w ra).ResetsToInit := by
  rintro ⟨s, x⟩ h
  have h1 := (limit_paused h).1
  exact wrap_equiv_reset (r := true) hD rfl (.reset rfl h1) .init (hD s h1) _

/-- For every source that resumes exactly, whose `next` never fails, and for which `restore_state(None)` works: the
limited dataset resumes exactly at every save point. Missing: sources whose `next` raises (then the property fails,
see `C19_violated`). -/
theorem C19_limit_resumes_partial (D : Dataset σ α κ) (length nw w : Nat) (ra : Bool)
    (hD : D.ResumesExactly true) (hR : D.ResetsToInit) (hL : D.Live true) :
    (limitD D length nw w ra).ResumesExactly true := by
  rintro ⟨s, ⟨n, c⟩⟩ h
  obtain ⟨h1, h2, h3⟩ := limit_paused h
  simp only at h1 h2 h3
  generalize hl : localShare length nw w = lim at *
  have e2 : (wrap D (limitW lim ra D.restoreSample (D.hasSamples && decide (0 < length)))).Equiv
      (s, ⟨n, .start⟩) (D.resume (D.save s), ⟨n, .start⟩) :=
    wrap_equiv_reset hR rfl h1 (.resume h1) (hD s h1) _
  have fin : ∀ s', D.Paused true s' →
      (wrap D (limitW lim ra D.restoreSample (D.hasSamples && decide (0 < length)))).Equiv
        (s', ⟨n, .finish⟩) (s, ⟨n, .finish⟩) := by
    intro s' hs'
    refine (wrap_equiv_resetStep (by rfl)).trans (.trans ?_ (wrap_equiv_resetStep (by rfl)).symm)
    exact wrap_equiv_reset hR rfl (.reset rfl hs') (.reset rfl h1) ((hR s' hs').trans (hR s h1).symm) _
  have e1 : (wrap D (limitW lim ra D.restoreSample (D.hasSamples && decide (0 < length)))).Equiv
      (s, ⟨n, c⟩) (s, ⟨n, .start⟩) := by
    rcases h3 with rfl | rfl
    · exact .refl _
    · by_cases hn : n < lim
      · refine (wrap_equiv_tau ?_).symm
        simp only [limitW, hn, if_true]
      · have hst : (wrap D (limitW lim ra D.restoreSample (D.hasSamples && decide (0 < length)))).Equiv
            (s, ⟨n, .start⟩) (s, ⟨n, .finish⟩) := by
          refine wrap_equiv_tau ?_
          simp only [limitW, hn, if_false]
        refine .trans ?_ hst.symm
        obtain ⟨o, ho, hne⟩ := hL s h1
        cases o with
        | item a s' =>
          refine (wrap_equiv_pullItem (by rfl) ho).trans (.trans (wrap_equiv_tau ?_) (fin s' (.item h1 ho)))
          simp only [limitW, hn, if_false]
        | fin s' => exact (wrap_equiv_pullFin (by rfl) ho).trans (fin s' (.fin h1 ho))
        | err => exact absurd rfl hne
  simp only [limitD, hl]
  exact e1.trans e2

/-- The hypotheses are satisfiable. -/
example : (limitD (listD [1, 2, 3, 4]) 3 1 0 true).ResumesExactly true :=
  C19_limit_resumes_partial _ _ _ _ _ (listD_resumes _ _) (listD_resets _) (listD_live _ _)

/-- A dataset of two samples whose predicate raises on the second. -/
def raisingD : Dataset (Nat × LoopX (Smp Nat)) (Smp Nat) (Nat × Nat) :=
  filterD (listD [1, 2]) (fun _ a => if a.content = 2 then none else some true)

/-- C19 fails for sources that raise: with limit 1, saved after the only sample, the original run raises (it takes one
more sample than it delivers), the resumed one ends its pass normally. -/
theorem C19_violated : raisingD.ResumesExactly ∧ ¬ (limitD raisingD 1 1 0 false).ResumesExactly := by
  refine ⟨C12_filter_resumes _ _ _ (listD_resumes _ _), fun h => ?_⟩
  have hp : (limitD raisingD 1 1 0 false).Paused false _ := Dataset.after_paused (n := 10) (k := 1) rfl .init
  exact Dataset.not_equiv 10 1 (by decide) (by decide) (h _ hp)

/-! ## C20: virtual epochs -/

/-- Every complete epoch has exactly the worker's share of samples, and the next epoch starts afresh. -/
theorem C20_epoch_length (D : Dataset σ α κ) (length nw w : Nat) (s : σ) (ys : List α) (q : σ × EpoX α)
    (hp : (epochizeD D length nw w).Paused false (s, ⟨0, .start⟩))
    (h : (epochizeD D length nw w).Pass (s, ⟨0, .start⟩) ys q) :
    ys.length = localShare length nw w ∧ q.2 = ⟨0, .start⟩ := by
  have hq : q.2 = ⟨0, .start⟩ := by
    obtain ⟨t, h1, h2⟩ := Dataset.pass_iff.1 h
    have h3 := epochize_paused (h1.paused hp)
    refine epochize_fin (wrap_obs.1 h2) h3.1 ?_ q rfl
    obtain ⟨t1, ⟨n, c⟩⟩ := t
    cases c <;> simp_all
  obtain ⟨es, h1, h2⟩ := run_inv epochize_noReset h
  have := epochize_count h2 ys rfl (by rw [hq])
  simp only at this
  exact ⟨by omega, hq⟩

/-- Over any number of epochs and any cut, the delivered samples are exactly the samples the source has delivered (in
pass after pass): nothing is lost, repeated or reordered. -/
theorem C20_epochs_concat (D : Dataset σ α κ) (length nw w : Nat) (s : σ) (os : List (Ev α)) (q : σ × EpoX α)
    (hp : (epochizeD D length nw w).Paused false (s, ⟨0, .start⟩))
    (h : (epochizeD D length nw w).Run (s, ⟨0, .start⟩) os q) :
    ∃ es, D.Run s es q.1 ∧ itemsOf os = itemsOf es := by
  obtain ⟨es, h1, h2⟩ := run_inv epochize_noReset h
  refine ⟨es, h1, ?_⟩
  have h3 := epochize_trans_inv h2
  have h4 := (epochize_paused (h.paused hp)).2
  cases hc : q.2.ctl <;> simp only [hc] at h3 h4
  · simpa using h3.symm
  · simpa using h3.symm

/-- The next epoch exists: if the source delivers (in one or more passes) the worker's share of samples, the last
event being a sample, then the epochized dataset delivers these samples as one epoch, leaving the source right after
the last of them. -/
theorem C20_epoch_exists (D : Dataset σ α κ) (length nw w : Nat) (s s' : σ) (es : List (Ev α)) (a : α)
    (hs : D.Run s (es ++ [.item a]) s') (hl : (itemsOf es).length + 1 = localShare length nw w) :
    (epochizeD D length nw w).Pass (s, ⟨0, .start⟩) (itemsOf es ++ [a]) (s', ⟨0, .start⟩) := by
  generalize hlen : localShare length nw w = len at *
  have hpos : 0 < len := by omega
  simp only [epochizeD, hlen]
  have h1 := epochize_pull_trans (len := len) (rs := D.restoreSample) (has := D.hasSamples) es a 0
    (fun e he => hs.noErr e (by simp [he])) (by omega)
  refine (Wrapper.Trans.tau (x' := ⟨0, .next 0⟩) ?_ (Wrapper.Trans.tau ?_ h1)).run_halt ?_ hs
  · simp only [epochizeW, hpos, if_true]
  · simp only [epochizeW, hpos, if_true]
  · simp only [epochizeW, Nat.lt_irrefl, if_false]

/-- The shares of the workers add up to the requested epoch length. -/
theorem C20_shares (length nw : Nat) : (∑ w ∈ Finset.range (max nw 1), localShare length nw w) = length :=
  localShare_sum length nw

/-- Epochs of 3 samples over a source of 2: 1 2 1 | 2 1 2. -/
example : ((epochizeD (listD [1, 2]) 3 1 0).eval 60 (epochizeD (listD [1, 2]) 3 1 0).init).take 8
    = [.item ⟨1, [.num 0]⟩, .item ⟨2, [.num 1]⟩, .item ⟨1, [.num 0]⟩, .fin,
       .item ⟨2, [.num 1]⟩, .item ⟨1, [.num 0]⟩, .item ⟨2, [.num 1]⟩, .fin] := by decide

/-! ## C21: resuming virtual epochs -/

/-- An epochized dataset resumes exactly, with one documented exception: saved after the last sample of an epoch, before
the end of the epoch was reported, the resumed run begins with the next epoch. -/
theorem C21_epochize_resumes_partial (D : Dataset σ α κ) (length nw w : Nat) (hD : D.ResumesExactly) :
    (epochizeD D length nw w).ResumesUpToEnd := by
  generalize hl : localShare length nw w = len
  rintro ⟨s, ⟨n, c⟩⟩ h
  simp only [epochizeD, hl] at *
  obtain ⟨h1, h2⟩ := epochize_paused h
  have e2 : (wrap D (epochizeW len D.restoreSample D.hasSamples)).Equiv
      (s, ⟨n, .start⟩) (D.resume (D.save s), ⟨n, .start⟩) :=
    wrap_equiv epochize_noReset (hD s h1) _
  cases c with
  | start => exact .inl e2
  | next i =>
    simp only at h2
    by_cases hi : i < len
    · left
      have hn : n = i := by rw [h2.2.2, Nat.mod_eq_of_lt hi]
      subst hn
      refine .trans (wrap_equiv_tau ?_).symm e2
      simp only [epochizeW, hi, if_true]
    · right
      refine ⟨(s, ⟨n, .start⟩), wrap_obs.2 (.halt ?_), e2⟩
      simp only [epochizeW, hi, if_false]
  | pulling i => exact absurd h2 id
  | got a i => exact absurd h2 id

/-- The exception is real: epochs of one sample; after the first sample the original run reports the end of the epoch, the
resumed one delivers the next sample. -/
theorem C21_violated : ¬ (epochizeD (listD [1, 2]) 1 1 0).ResumesExactly := by
  intro h
  have hp : (epochizeD (listD [1, 2]) 1 1 0).Paused false _ := Dataset.after_paused (n := 10) (k := 1) rfl .init
  exact Dataset.not_equiv 10 1 (by decide) (by decide) (h _ hp)

/-- The hypotheses are satisfiable. -/
example : (epochizeD (listD [1, 2, 3]) 2 1 0).ResumesUpToEnd := C21_epochize_resumes_partial _ _ _ _ (listD_resumes _ _)

/-! ## C22: Repeat -/

/-- `n` passes `xss` of the source in a row. -/
inductive Dataset.Passes (D : Dataset σ α κ) : σ → List (List α) → σ → Prop where
  | nil {s} : D.Passes s [] s
  | cons {s xs s' xss s''} : D.Pass s xs s' → D.Passes s' xss s'' → D.Passes s (xs :: xss) s''

theorem Dataset.Passes.run {D : Dataset σ α κ} {s s' : σ} {xss : List (List α)} (h : D.Passes s xss s') :
    D.Run s (xss.flatMap passEvs) s' := by
  induction h with
  | nil => exact .nil
  | cons h _ ih => simpa using Dataset.Run.append h ih

/-- Repeated `n` times: if the source's next `n` passes are `xss`, iterating the new dataset delivers all of them, one after
the other, as one pass. -/
theorem C22_repeat_pass_partial (D : Dataset σ α κ) (n : Nat) (xss : List (List α)) (hn : xss.length = n) (s s' : σ)
    (hs : D.Passes s xss s') :
    (repeatD D (some n)).Pass (s, ⟨0, .start⟩) xss.flatten (s', ⟨n, .start⟩) := by
  refine (repeat_passes_trans xss 0 n (by omega)).run_halt ?_ hs.run
  simp only [repeatW, Nat.lt_irrefl, if_false]

/-- But only the first iteration: every later iteration of a dataset repeated `n` times is empty, because the counter is
never set back. (The claim "every pass yields the source n times" is false.) -/
theorem C22_violated_second_iteration (D : Dataset σ α κ) (n : Nat) (s : σ) :
    (repeatD D (some n)).Pass (s, ⟨n, .start⟩) [] (s, ⟨n, .start⟩) := by
  refine .fin (wrap_obs.2 (.halt ?_)) .nil
  simp only [repeatW, Nat.lt_irrefl, if_false]

/-- Repeated without count the pass never ends. -/
theorem C22_forever_never_ends (D : Dataset σ α κ) (r : Bool) : (repeatD D none).NeverEnds r := by
  rintro ⟨s, x⟩ q hp h
  clear hp
  replace h := wrap_obs.1 h
  generalize ho : Out.fin q = o at h
  induction h with
  | emit h => cases ho
  | @halt s x x' h =>
    obtain ⟨m, c⟩ := x
    cases c <;> simp only [repeatW] at h <;> first | cases h | (split at h <;> cases h)
  | raise h => cases ho
  | tau h _ ih => exact ih ho
  | reset h => exact absurd h (repeat_noReset _ _)
  | pullItem h h2 _ ih => exact ih ho
  | pullFin h h2 _ ih => exact ih ho
  | pullErr h => cases ho

/-- Repeated without count: whatever the source delivers in pass after pass is delivered, in order... -/
theorem C22_forever_delivers (D : Dataset σ α κ) (hD : D.hasSamples = true) (es : List (Ev α)) (s s' : σ)
    (hs : D.Run s es s') : ∃ q, (repeatD D none).Items (s, ⟨0, .start⟩) (itemsOf es) q := by
  obtain ⟨m, h⟩ := repeat_forward (rs := D.restoreSample) es hs.noErr 1
  have h2 : (repeatW none true D.restoreSample).Trans ⟨0, .start⟩ es ((itemsOf es).map .item) ⟨m, .loop⟩ :=
    .tau (by rfl) h
  obtain ⟨q, hq⟩ := h2.run_some (D := D) hs
  exact ⟨q, by simpa [repeatD, hD, Dataset.Items] using hq⟩

/-- ... and nothing else. -/
theorem C22_forever_only (D : Dataset σ α κ) (ys : List α) (s : σ) (q : σ × RepX α)
    (hp : (repeatD D none).Paused false (s, ⟨0, .start⟩))
    (h : (repeatD D none).Items (s, ⟨0, .start⟩) ys q) : ∃ es, D.Run s es q.1 ∧ itemsOf es = ys := by
  obtain ⟨es, h1, h2⟩ := run_inv repeat_noReset h
  refine ⟨es, h1, ?_⟩
  have h3 := (repeat_trans_inv h2).1
  have h4 := (repeat_paused (h.paused hp)).2.1
  rcases h4 with h4 | h4 <;> simpa [h4] using h3

example : ((repeatD (listD [1, 2]) (some 2)).eval 60 (repeatD (listD [1, 2]) (some 2)).init).take 6
    = [.item ⟨1, [.num 0]⟩, .item ⟨2, [.num 1]⟩, .item ⟨1, [.num 0]⟩, .item ⟨2, [.num 1]⟩, .fin, .fin] := by decide

example : (listD [1, 2]).Passes 0 [[⟨1, [.num 0]⟩, ⟨2, [.num 1]⟩], [⟨1, [.num 0]⟩, ⟨2, [.num 1]⟩]] 0 :=
  .cons (listD_pass [1, 2]) (.cons (listD_pass [1, 2]) .nil)

/-! ## C23: resuming Repeat -/

/-- Repeated without count the dataset resumes exactly if its source does. Missing: a finite number of repeats (then the
property is false, see `C23_violated`). -/
theorem C23_repeat_forever_partial (D : Dataset σ α κ) (hD : D.ResumesExactly) :
    (repeatD D none).ResumesExactly := by
  rintro ⟨s, ⟨n, c⟩⟩ h
  obtain ⟨h1, h2, h3⟩ := repeat_paused h
  have e2 : (wrap D (repeatW none D.hasSamples D.restoreSample)).Equiv
      (s, ⟨n, .start⟩) (D.resume (D.save s), ⟨n, .start⟩) :=
    wrap_equiv repeat_noReset (hD s h1) _
  refine .trans ?_ e2
  rcases h2 with h2 | h2 <;> simp only at h2 <;> subst h2
  · exact .refl _
  · cases hh : D.hasSamples with
    | false => exact absurd (h3 rfl hh) (by simp)
    | true => exact (repeat_forever_off (m := n) (n := n + 1)).trans (wrap_equiv_tau (by simp [repeatW, hh])).symm

/-- With a finite number of repeats the property is false: repeated twice, saved after the first sample, the resumed run
delivers only the rest of this pass and loses the second. -/
theorem C23_violated : (listD [1, 2]).ResumesExactly ∧ ¬ (repeatD (listD [1, 2]) (some 2)).ResumesExactly := by
  refine ⟨listD_resumes _ _, fun h => ?_⟩
  have hp : (repeatD (listD [1, 2]) (some 2)).Paused false _ := Dataset.after_paused (n := 10) (k := 1) rfl .init
  exact Dataset.not_equiv 30 4 (by decide) (by decide) (h _ hp)

/-- Worse: saved during the last repeat nothing at all is delivered after resuming. -/
theorem C23_violated_last : ∃ t, (repeatD (listD [1, 2]) (some 1)).Paused false t ∧
    (∃ a t', Obs (repeatD (listD [1, 2]) (some 1)).step t (.item a t')) ∧
    ∃ t', Obs (repeatD (listD [1, 2]) (some 1)).step
      ((repeatD (listD [1, 2]) (some 1)).resume ((repeatD (listD [1, 2]) (some 1)).save t)) (.fin t') := by
  have hp : (repeatD (listD [1, 2]) (some 1)).Paused false (1, ⟨1, .loop⟩) :=
    Dataset.after_paused (n := 10) (k := 1) rfl .init
  exact ⟨_, hp, ⟨⟨2, [.num 1]⟩, _, .skip rfl (.item rfl)⟩, _, .fin rfl⟩

/-- The hypotheses are satisfiable. -/
example : (repeatD (listD [1, 2]) none).ResumesExactly := C23_repeat_forever_partial _ (listD_resumes _ _)

/-! ## C34 for these wrappers: `restore_sample` is passed on to the source -/

theorem C34_limit (D : Dataset σ (Smp C) κ) (length nw w : Nat) (ra : Bool) (hD : D.RestoresSamples true) :
    (limitD D length nw w ra).RestoresSamples true := by
  rintro ⟨s, x⟩ a q hp h
  obtain ⟨h1, h2⟩ := limit_paused hp
  have H := limit_inv (D := D) (lim := localShare length nw w) (ra := ra) (rs := D.restoreSample)
    (has := D.hasSamples && decide (0 < length)) true rfl
  refine WObs.emits H (Z := fun a => D.restoreSample a.key = some a) ?_ (wrap_obs.1 h) h1 (H.resume_to _ h2)
  rintro ⟨n, c⟩ b x' hx ha
  cases c <;> simp only [limitW] at ha <;> try (first | cases ha | (split at ha <;> cases ha))
  obtain ⟨t, t', h3, h4⟩ := hx.2 _ rfl
  exact hD _ _ _ h3 h4

theorem C34_epochize (D : Dataset σ (Smp C) κ) (length nw w : Nat) (hD : D.RestoresSamples) :
    (epochizeD D length nw w).RestoresSamples := by
  rintro ⟨s, x⟩ a q hp h
  obtain ⟨h1, h2⟩ := epochize_paused hp
  have H := epochize_inv (D := D) (len := localShare length nw w) (rs := D.restoreSample)
    (has := D.hasSamples) false
  refine WObs.emits H (Z := fun a => D.restoreSample a.key = some a) ?_ (wrap_obs.1 h) h1 (H.resume_to _ h2)
  rintro ⟨n, c⟩ b x' hx ha
  cases c <;> simp only [epochizeW] at ha <;> try (first | cases ha | (split at ha <;> cases ha))
  obtain ⟨t, t', h3, h4⟩ := hx.2.2
  exact hD _ _ _ h3 h4

theorem C34_repeat (D : Dataset σ (Smp C) κ) (reps : Option Nat) (hD : D.RestoresSamples) :
    (repeatD D reps).RestoresSamples := by
  rintro ⟨s, x⟩ a q hp h
  obtain ⟨h1, h2⟩ := repeat_paused hp
  have H := repeat_inv (D := D) (reps := reps) (rs := D.restoreSample) (has := D.hasSamples) false
  refine WObs.emits H (Z := fun a => D.restoreSample a.key = some a) ?_ (wrap_obs.1 h) h1 (H.resume_to _ h2)
  rintro ⟨n, c⟩ b x' hx ha
  cases c <;> simp only [repeatW] at ha <;> try cases ha
  · cases reps <;> simp only at ha <;> split at ha <;> cases ha
  · obtain ⟨t, t', h3, h4⟩ := hx.1 _ rfl
    exact hD _ _ _ h3 h4

end Verif.Stream
