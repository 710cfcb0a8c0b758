import Verif.Wrap.BlendLemmas
import Verif.Wrap.ShuffleProps

/-! # C15 - C17, C24: blending and concatenating -/

namespace Verif.Stream

variable {σ κ C ρ : Type}

/-! ## C15 -/

/-- The sequence of parts is determined by the random generator alone: the first `j` draws among `m` parts. -/
def blendDraws (R : Rng ρ) (m : Nat) (g : ρ) (j : Nat) : List Nat := (drawSeq R m j g).1

/-- Let `ys` be delivered by a blend, `zs` below are the same samples without the blend's own key entries, each with
the position `k` of its part among the parts that have samples for this worker. Then
* `ys` is `zs` with these entries added to the keys,
* the positions are the choices of the random generator,
* for every part, the samples that come from it are exactly what this part delivers, in order (its passes being repeated),
* a part without samples is never drawn from. -/
theorem C15_blend_faithful (D : Nat → Dataset σ (Smp C) κ) (n : Nat) (R : Rng ρ) (S : Nat → σ) (g : ρ)
    (ys : List (Smp C)) (q : (Nat → σ) × BlendX ρ C)
    (hp : (blendD D n R).Paused false (S, ⟨g, .start⟩))
    (h : (blendD D n R).Items (S, ⟨g, .start⟩) ys q) :
    ∃ zs : List (Nat × Smp C),
      ys = zs.map (fun z => z.2.addKey [.str "BlendDataset", .num z.1]) ∧
      zs.map (·.1) = blendDraws R (blendActive D n).length g ys.length ∧
      (∀ k i, (blendActive D n)[k]? = some i →
        ∃ es, (D i).Run (S i) es (q.1 i) ∧ itemsOf es = (zs.filter (·.1 = k)).map (·.2)) ∧
      (∀ i, i ∉ blendActive D n → q.1 i = S i) := by
  obtain ⟨es, h1, h2⟩ := multi_run_inv blend_noReset h
  obtain ⟨zs, h3, h4, h5, j, h6, h7⟩ := blend_trans_inv h2
  have hc := (blend_paused (h.paused hp)).2
  have hpend : q.2.ctl.pend = [] ∧ q.2.ctl.pendK = [] := by
    rcases hc with hc | ⟨hc, _⟩ <;> rw [hc] <;> exact ⟨rfl, rfl⟩
  have hys : ys = zs.map blendTag := by
    have := congrArg itemsOf h3
    rwa [Dataset.itemsOf_map, Dataset.itemsOf_map] at this
  refine ⟨zs, hys, ?_, fun k i hk => ⟨evsOf i es, h1 i, ?_⟩, fun i hi => ?_⟩
  · simp only [pendK_start, List.nil_append, hpend.2, List.append_nil] at h6
    have hj : j = ys.length := by
      have := congrArg List.length h6
      rw [drawSeq_length] at this
      rw [this, hys]; simp
    rw [← h6, hj]; rfl
  · simpa [hpend.1] using h4 k i hk
  · have := h1 i
    rw [h5 i hi] at this
    exact (run_nil_inv this).symm

/-- A blend never ends. -/
theorem C15_blend_never_ends (D : Nat → Dataset σ (Smp C) κ) (n : Nat) (R : Rng ρ) (r : Bool) :
    (blendD D n R).NeverEnds r := by
  rintro ⟨S, x⟩ q hp h
  obtain ⟨es, h1, h2⟩ := multi_run_inv (blend_noReset (D := D) (n := n) (R := R)) (Dataset.Run.fin h .nil)
  obtain ⟨zs, h3, _⟩ := blend_trans_inv h2
  cases zs <;> cases h3

/-- From every state the dataset delivers a further sample, at the latest after finitely many ends of passes. -/
def Dataset.Productive {α : Type} (D : Dataset σ α κ) (r : Bool := false) : Prop :=
  ∀ s, D.Paused r s → ∃ m a s', D.Run s (List.replicate m .fin ++ [.item a]) s'

/-- If some part has samples for this worker, and all such parts go on delivering samples, the blend always delivers a
further sample. -/
theorem C15_blend_productive (D : Nat → Dataset σ (Smp C) κ) (n : Nat) (R : Rng ρ) (r : Bool)
    (hne : ∃ i, i < n ∧ (D i).hasSamples = true)
    (hD : ∀ i, i < n → (D i).hasSamples = true → (D i).Productive r)
    (t : (Nat → σ) × BlendX ρ C) (ht : (blendD D n R).Paused r t) :
    ∃ a t', Obs (blendD D n R).step t (.item a t') := by
  obtain ⟨S, ⟨g, c⟩⟩ := t
  obtain ⟨h1, h2⟩ := blend_paused ht
  obtain ⟨i0, hi0⟩ := hne
  have hpos : 0 < (blendActive D n).length :=
    List.length_pos_of_mem (mem_blendActive.2 hi0)
  have hfrom : ∀ k m a (T : Nat → σ) s' i g, (blendActive D n)[k]? = some i →
      (D i).Run (T i) (List.replicate m .fin ++ [.item a]) s' →
      ∃ b t', WObs (Source.multi D) (blendW D n R) T ⟨g, .pulling k⟩ (.item b t') := by
    intro k m a
    induction m with
    | zero =>
      intro T s' i g hk hr
      cases hr with
      | item ho _ =>
        refine ⟨_, _, .pullItem (W := blendW D n R) (x := ⟨g, .pulling k⟩) (i := i)
          (f := fun a => ⟨g, .got a k⟩) (g := ⟨g, .pulling k⟩) ?_ (multi_obs_of ho) (.emit rfl)⟩
        simp only [blendW, hk]
    | succ m ih =>
      intro T s' i g hk hr
      cases hr with
      | @fin _ s1 _ _ ho hr' =>
        obtain ⟨b, t', hb⟩ := ih (upd T i s1) s' i g hk (by rw [upd_same]; exact hr')
        refine ⟨b, t', .pullFin (W := blendW D n R) (x := ⟨g, .pulling k⟩) (i := i)
          (f := fun a => ⟨g, .got a k⟩) (g := ⟨g, .pulling k⟩) ?_ (multi_obs_of ho) hb⟩
        simp only [blendW, hk]
  have hdraw : ∀ g, ∃ b t', WObs (Source.multi D) (blendW D n R) S ⟨g, .draw⟩ (.item b t') := by
    intro g
    have hk := R.choiceIdx_lt g hpos
    have hi := mem_blendActive.1 (List.getElem_mem hk)
    obtain ⟨m, a, s', hr⟩ := hD _ hi.1 hi.2 _ (h1 _)
    obtain ⟨b, t', hb⟩ := hfrom _ m a S s' _ (R.choiceIdx g (blendActive D n).length).2
      (List.getElem?_eq_getElem hk) hr
    exact ⟨b, t', .tau (by rfl) hb⟩
  rcases h2 with h2 | ⟨h2, _⟩ <;> simp only at h2 <;> subst h2
  · obtain ⟨b, t', hb⟩ := hdraw g
    refine ⟨b, t', wrapMulti_obs.2 (.tau (x' := ⟨g, .draw⟩) ?_ hb)⟩
    have : (blendActive D n).isEmpty = false := by
      cases hh : blendActive D n with
      | nil => rw [hh] at hpos; simp at hpos
      | cons => rfl
    simp only [blendW, this, Bool.false_eq_true, if_false]
  · obtain ⟨b, t', hb⟩ := hdraw g
    exact ⟨b, t', wrapMulti_obs.2 hb⟩

/-- Two parts and an empty one, and a generator that alternates. -/
def exParts : Nat → Dataset Nat (Smp Nat) Nat
  | 0 => listD []
  | 1 => listD [1, 2]
  | _ => listD [7]

example : ((blendD exParts 3 lastRng).eval 60 (blendD exParts 3 lastRng).init).take 5
    = [.item ⟨1, [.str "BlendDataset", .num 0, .num 0]⟩, .item ⟨7, [.str "BlendDataset", .num 1, .num 0]⟩,
       .item ⟨2, [.str "BlendDataset", .num 0, .num 1]⟩, .item ⟨7, [.str "BlendDataset", .num 1, .num 0]⟩,
       .item ⟨1, [.str "BlendDataset", .num 0, .num 0]⟩] := by decide

theorem listD_productive (x : C) (xs : List C) (r : Bool) : (listD (x :: xs)).Productive r := by
  intro s _
  by_cases h : s < (x :: xs).length
  · exact ⟨0, _, _, .item (.item (by simp only [listD, dif_pos h]; rfl)) .nil⟩
  · exact ⟨1, ⟨x, [.num 0]⟩, 1, .fin (.fin (by simp only [listD, dif_neg h]; rfl)) (.item (.item rfl) .nil)⟩

/-- The hypotheses of `C15_blend_productive` are satisfiable. -/
example (t) (ht : (blendD exParts 3 lastRng).Paused false t) : ∃ a t', Obs (blendD exParts 3 lastRng).step t (.item a t') := by
  refine C15_blend_productive exParts 3 lastRng false ⟨1, by decide, rfl⟩ ?_ t ht
  intro i _ h
  match i with
  | 0 => cases h
  | 1 => exact listD_productive _ _ _
  | _ + 2 => exact listD_productive _ _ _

/-! ## C16 -/

/-- A blend of parts that resume exactly resumes exactly, at every save point, also repeatedly. -/
theorem C16_blend_resumes (D : Nat → Dataset σ (Smp C) κ) (n : Nat) (R : Rng ρ)
    (hD : ∀ i, (D i).ResumesExactly) : (blendD D n R).ResumesExactly := by
  rintro ⟨S, ⟨g, c⟩⟩ h
  obtain ⟨h1, h2⟩ := blend_paused h
  have e2 : (wrapMulti D (blendW D n R)).Equiv (S, ⟨g, .start⟩)
      (fun i => (D i).resume ((D i).save (S i)), ⟨g, .start⟩) :=
    wrapMulti_equiv blend_noReset (fun i => hD i _ (h1 i)) _
  refine .trans ?_ e2
  rcases h2 with h2 | ⟨h2, hpos⟩ <;> simp only at h2 <;> subst h2
  · exact .refl _
  · refine (wrapMulti_equiv_tau ?_).symm
    have : (blendActive D n).isEmpty = false := by
      cases hh : blendActive D n with
      | nil => rw [hh] at hpos; simp at hpos
      | cons => rfl
    simp only [blendW, this, Bool.false_eq_true, if_false]

example : (blendD exParts 3 lastRng).ResumesExactly :=
  C16_blend_resumes _ _ _ fun i => by
    match i with
    | 0 => exact listD_resumes _ _
    | 1 => exact listD_resumes _ _
    | _ + 2 => exact listD_resumes _ _

/-! ## C17 -/

/-- If every part has samples for this worker, samples of a blend are restored from their keys. Missing: some part has
none (then the property fails, see `C17_violated`). -/
theorem C17_blend_restores_partial (D : Nat → Dataset σ (Smp C) κ) (n : Nat) (R : Rng ρ) (r : Bool)
    (hall : ∀ i, i < n → (D i).hasSamples = true) (hD : ∀ i, (D i).RestoresSamples r) :
    (blendD D n R).RestoresSamples r := by
  have hact : blendActive D n = List.range n := by
    simp only [blendActive]
    exact List.filter_eq_self.2 fun i hi => hall i (List.mem_range.1 hi)
  rintro ⟨S, x⟩ a q hp h
  obtain ⟨h1, h2⟩ := blend_paused hp
  have H := blend_inv (D := D) (n := n) (R := R) r
  refine WObs.emits H (Z := fun a => (blendD D n R).restoreSample a.key = some a) ?_ (wrapMulti_obs.1 h) h1
    (H.resume_to _ h2)
  rintro ⟨g, c⟩ b x' hx ha
  cases c <;> simp only [blendW] at ha <;> try (first | cases ha | (split at ha <;> cases ha))
  next a k =>
  obtain ⟨i, h3, s, s', h4, h5⟩ := hx
  rw [hact] at h3
  obtain ⟨h6, h7⟩ := List.getElem?_eq_some_iff.1 h3
  simp only [List.length_range] at h6
  simp only [List.getElem_range] at h7
  subst h7
  have := hD _ _ _ _ h4 h5
  simp only [blendD, wrapMulti, blendW, Smp.addKey, List.cons_append, List.nil_append, h6, and_self, if_true,
    this, Option.map_some]

/-- C17 fails if a part without samples precedes: a sample of part 1 gets the key of part 0, restoring it fails. -/
theorem C17_violated : (∀ i, (exParts i).RestoresSamples) ∧ ¬ (blendD exParts 3 lastRng).RestoresSamples := by
  constructor
  · intro i
    match i with
    | 0 => exact listD_restores _ _
    | 1 => exact listD_restores _ _
    | _ + 2 => exact listD_restores _ _
  · intro h
    have := h _ ⟨1, [.str "BlendDataset", .num 0, .num 0]⟩ _ .init
      (.skip rfl (.skip rfl (.skip rfl (.item rfl))))
    revert this
    decide

/-- Worse, it can silently restore a sample of another part. -/
theorem C17_violated_silently : ∃ (D : Nat → Dataset Nat (Smp Nat) Nat) (a : Smp Nat) (t : _),
    Obs (blendD D 2 lastRng).step (blendD D 2 lastRng).init (.item a t) ∧
    ∃ b, (blendD D 2 lastRng).restoreSample a.key = some b ∧ b.content ≠ a.content := by
  refine ⟨fun i => if i = 0 then { listD [5] with hasSamples := false } else listD [7],
    ⟨7, [.str "BlendDataset", .num 0, .num 0]⟩, _, (.skip rfl (.skip rfl (.skip rfl (.item rfl)))),
    ⟨5, [.str "BlendDataset", .num 0, .num 0]⟩, by decide, by decide⟩

/-! ## C24 -/

/-- One pass of the concatenation is the parts' passes one after the other. -/
theorem C24_concat_pass (D : Nat → Dataset σ (Smp C) κ) (n : Nat) (S S' : Nat → σ) (xss : Nat → List (Smp C))
    (h : ∀ i, i < n → (D i).Pass (S i) (xss i) (S' i)) (h' : ∀ i, n ≤ i → S' i = S i) :
    (concatD D n).Pass (S, .part 0)
      ((List.range n).flatMap fun i => (xss i).map (·.addKey [.str "ConcatDataset", .num i])) (S', .part 0) := by
  have h1 := concat_parts_trans (D := D) (n := n) xss n 0 (by omega)
  rw [← List.range_eq_range'] at h1
  refine h1.run_append (D := D) (S' := S') ?_ (by simp) (.fin (wrapMulti_obs.2 (.halt ?_)) .nil)
  · intro i
    rw [evsOf_flatMap i _ List.nodup_range]
    by_cases hi : i < n
    · simpa [hi, Dataset.Pass] using h i hi
    · simp only [List.mem_range, hi, if_false]
      rw [h' i (by omega)]; exact .nil
  · simp only [concatW, Nat.lt_irrefl, if_false]

/-- Resuming is exact as long as the first part is not exhausted (in particular for a single part). Missing: later
save points, where the property fails (`C24_violated`). -/
theorem C24_concat_first_part_partial (D : Nat → Dataset σ (Smp C) κ) (n : Nat)
    (hD : ∀ i, (D i).ResumesExactly) (t : (Nat → σ) × ConcatX C) (ht : (concatD D n).Paused false t)
    (h0 : t.2 = .part 0) :
    (concatD D n).Equiv t ((concatD D n).resume ((concatD D n).save t)) := by
  obtain ⟨S, x⟩ := t
  simp only at h0; subst h0
  exact wrapMulti_equiv concat_noReset (fun i => hD i _ ((concat_paused ht).1 i)) _

/-- C24 fails when the first part is exhausted: parts `[], [1, 2], [7]`: saved after 7 the resumed
run begins with 1 again. -/
theorem C24_violated : (∀ i, (exParts i).ResumesExactly) ∧ ¬ (concatD exParts 3).ResumesExactly := by
  constructor
  · intro i
    match i with
    | 0 => exact listD_resumes _ _
    | 1 => exact listD_resumes _ _
    | _ + 2 => exact listD_resumes _ _
  · intro h
    have hp : (concatD exParts 3).Paused false _ := Dataset.after_paused (n := 20) (k := 3) rfl .init
    exact Dataset.not_equiv 20 1 (by decide) (by decide) (h _ hp)

example : ((concatD exParts 3).eval 60 (concatD exParts 3).init).take 4
    = [.item ⟨1, [.str "ConcatDataset", .num 1, .num 0]⟩, .item ⟨2, [.str "ConcatDataset", .num 1, .num 1]⟩,
       .item ⟨7, [.str "ConcatDataset", .num 2, .num 0]⟩, .fin] := by decide

/-- C34 for concatenations. -/
theorem C34_concat (D : Nat → Dataset σ (Smp C) κ) (n : Nat) (r : Bool) (hD : ∀ i, (D i).RestoresSamples r) :
    (concatD D n).RestoresSamples r := by
  rintro ⟨S, x⟩ a q hp h
  obtain ⟨h1, h2⟩ := concat_paused hp
  have H := concat_inv (D := D) (n := n) r
  refine WObs.emits H (Z := fun a => (concatD D n).restoreSample a.key = some a) ?_ (wrapMulti_obs.1 h) h1
    (H.resume_to _ h2)
  rintro c b x' hx ha
  cases c <;> simp only [concatW] at ha <;> try (first | cases ha | (split at ha <;> cases ha))
  next a i =>
  obtain ⟨h3, s, s', h4, h5⟩ := hx
  have := hD _ _ _ _ h4 h5
  simp only [concatD, wrapMulti, concatW, Smp.addKey, List.cons_append, List.nil_append, h3, and_self, if_true,
    this, Option.map_some]

end Verif.Stream
