import Verif.Decode.Model
import Verif.Stream.Example

/-!
# C124: decoding errors

Source: /repo src/megatron/energon/flavors/webdataset/default_decoder_webdataset.py (model in `Verif.Decode.Model`).
-/

namespace Verif.Decode

open Verif.Stream

variable {σ κ B C : Type}

/-! ### Specification -/

/-- The files of the sample cannot be decoded, and this is an error of the sample, not of the system. -/
def Factory.Undecodable (F : Factory B C) (b : B) : Prop := F.autoDecode = true ∧ ∃ m, F.decoder b = .error (.other m)

/-- The sample is decoded, if asked for, and made to the content `c`. -/
def Factory.Gives (F : Factory B C) (b : B) (c : C) : Prop :=
  if F.autoDecode then ∃ d, F.decoder b = .ok d ∧ F.construct d = .ok c else F.construct b = .ok c

/-- The contents `cs` are those of the samples `xs` in order, those that cannot be decoded left out. -/
inductive Factory.Decoded (F : Factory B C) : List (Smp B) → List C → Prop where
  | nil : F.Decoded [] []
  | good {a c xs cs} : F.Gives a.content c → F.Decoded xs cs → F.Decoded (a :: xs) (c :: cs)
  | bad {a xs cs} : F.Undecodable a.content → F.Decoded xs cs → F.Decoded (a :: xs) cs

/-- With `ignore_decoder_errors` every pass over samples of which some cannot be decoded delivers the others. -/
def C124_statement (F : Factory B C) (D : Dataset σ (Smp B) κ) : Prop :=
  F.ignoreDecoderErrors = true → ∀ s xs s' cs n, D.Pass s xs s' → F.Decoded xs cs →
    ∃ ys q, (F.dataset D).Pass (s, ⟨n, .loop⟩) ys q ∧ ys.map (·.content) = cs

/-! ### Proofs -/

theorem gives_load {F : Factory B C} {b : B} {c : C} : F.Gives b c ↔ F.loadSample b = .ok c := by
  unfold Factory.Gives Factory.loadSample
  cases F.autoDecode with
  | true =>
    simp only [if_true]
    cases h : F.decoder b with
    | ok d => simp
    | error e => simp
  | false => simp

theorem undecodable_load {F : Factory B C} {b : B} (h : F.Undecodable b) : ∃ m, F.loadSample b = .error (.other m) ∧ F.decoder b = .error (.other m) := by
  obtain ⟨h1, m, h2⟩ := h
  exact ⟨m, by unfold Factory.loadSample; simp [h1, h2], h2⟩

theorem decoded_spec {F : Factory B C} {xs : List (Smp B)} {cs : List C} (h : F.Decoded xs cs) (hh : ∀ m, (∃ a ∈ xs, F.decoder a.content = .error (.other m)) → F.handlerReturns (.other m) = true) (n : Nat) :
    (∀ q ∈ xs.zipIdx n, F.mapFn q.2 q.1 ≠ .fatal) ∧ (mapSpec F.mapFn n xs).map (·.content) = cs := by
  induction h generalizing n with
  | nil => exact ⟨by simp, rfl⟩
  | @good a c xs cs h1 _ ih =>
    obtain ⟨h3, h4⟩ := ih (fun m ⟨a, h, e⟩ => hh m ⟨a, by simp [h], e⟩) (n + 1)
    have h5 : F.mapFn n a = .ok c := by unfold Factory.mapFn; rw [gives_load.1 h1]
    constructor
    · intro q hq
      rw [List.zipIdx_cons] at hq
      rcases List.mem_cons.1 hq with rfl | hq
      · rw [h5]; simp
      · exact h3 q hq
    · unfold mapSpec at h4 ⊢
      rw [List.zipIdx_cons, List.filterMap_cons]
      simp only [h5, List.map_cons, h4]
  | @bad a xs cs h1 _ ih =>
    obtain ⟨h3, h4⟩ := ih (fun m ⟨a, h, e⟩ => hh m ⟨a, by simp [h], e⟩) (n + 1)
    obtain ⟨m, h6, h7⟩ := undecodable_load h1
    have h5 : F.mapFn n a = .fail := by unfold Factory.mapFn; rw [h6]; simp [hh m ⟨a, by simp, h7⟩]
    constructor
    · intro q hq
      rw [List.zipIdx_cons] at hq
      rcases List.mem_cons.1 hq with rfl | hq
      · rw [h5]; simp
      · exact h3 q hq
    · unfold mapSpec at h4 ⊢
      rw [List.zipIdx_cons, List.filterMap_cons]
      simp only [h5, h4]

/-! ### The properties -/

/-- **C124.** Over every reader and from every state: if the handler given to the dataset returns for the errors the decoder raises, each pass delivers exactly the samples that can be decoded, in order, whatever `ignore_decoder_errors` is.
Missing: the default handler (`C124_violated`). -/
theorem C124_ignored_partial (F : Factory B C) (D : Dataset σ (Smp B) κ) (hh : ∀ b m, F.decoder b = .error (.other m) → F.handlerReturns (.other m) = true)
    {s s' : σ} {xs : List (Smp B)} {cs : List C} (n : Nat) (hs : D.Pass s xs s') (h : F.Decoded xs cs) :
    ∃ ys q, (F.dataset D).Pass (s, ⟨n, .loop⟩) ys q ∧ ys.map (·.content) = cs := by
  obtain ⟨h1, h2⟩ := decoded_spec h (fun m ⟨a, _, e⟩ => hh _ m e) n
  exact ⟨_, _, C13_map_pass D F.mapFn true n xs s s' hs h1, h2⟩

/-- `ignore_decoder_errors` has no effect: in each step the dataset does the same with and without it, and saves, restores and looks up the same. -/
theorem C124_no_effect (F : Factory B C) (D : Dataset σ (Smp B) κ) (b : Bool) : ({ F with ignoreDecoderErrors := b } : Factory B C).dataset D = F.dataset D := rfl

/-- **C124 is violated by the default handler:** whatever `ignore_decoder_errors` is, behind the samples before it the first sample that cannot be decoded ends the iteration with an exception. -/
theorem C124_violated_raises (F : Factory B C) (hF : F.handlerReturns = reraise) (D : Dataset σ (Smp B) κ) {s s' s'' : σ} {xs : List (Smp B)} {cs : List C} {a : Smp B} (n : Nat)
    (hs : D.Items s xs s') (h : F.Decoded xs cs) (hd : ∀ x ∈ xs, ¬ F.Undecodable x.content) (ho : Obs D.step s' (.item a s'')) (ha : F.Undecodable a.content) :
    ∃ ys : List (Smp C), ys.map (·.content) = cs ∧ (F.dataset D).Trace (s, ⟨n, .loop⟩) (ys.map .item ++ [.err]) := by
  have hg : ∀ {xs : List (Smp B)} {cs : List C}, F.Decoded xs cs → (∀ x ∈ xs, ¬ F.Undecodable x.content) → ∀ n,
      (∀ q ∈ xs.zipIdx n, F.mapFn q.2 q.1 ≠ .fatal) ∧ (mapSpec F.mapFn n xs).map (·.content) = cs := by
    intro xs cs h
    induction h with
    | nil => exact fun _ n => ⟨by simp, rfl⟩
    | @good a c xs cs h1 _ ih =>
      intro hd n
      obtain ⟨h3, h4⟩ := ih (fun x hx => hd x (by simp [hx])) (n + 1)
      have h5 : F.mapFn n a = .ok c := by unfold Factory.mapFn; rw [gives_load.1 h1]
      constructor
      · intro q hq
        rw [List.zipIdx_cons] at hq
        rcases List.mem_cons.1 hq with rfl | hq
        · rw [h5]; simp
        · exact h3 q hq
      · unfold mapSpec at h4 ⊢
        rw [List.zipIdx_cons, List.filterMap_cons]
        simp only [h5, List.map_cons, h4]
    | bad h1 _ _ => exact fun hd => absurd h1 (hd _ (by simp))
  obtain ⟨h1, h2⟩ := hg h hd n
  obtain ⟨m, h3, -⟩ := undecodable_load ha
  refine ⟨_, h2, C13_map_fatal D F.mapFn true n xs a s s' s'' hs h1 ho ?_⟩
  unfold Factory.mapFn
  rw [h3]
  simp [hF, reraise]

/-- Without `auto_decode` the decoder is never used: no error of it can show. -/
theorem C124_no_decoder (F : Factory B C) (hF : F.autoDecode = false) (D : Dataset σ (Smp B) κ) (g : B → Except Exc B) : ({ F with decoder := g } : Factory B C).dataset D = F.dataset D := by
  unfold Factory.dataset
  congr 1
  funext n a
  unfold Factory.mapFn Factory.loadSample
  simp only [hF, Bool.false_eq_true, if_false]

/-- Errors of the system always end the iteration, whatever the handler does. -/
theorem C124_system (F : Factory B C) (hF : F.autoDecode = true) (D : Dataset σ (Smp B) κ) {s s' : σ} {a : Smp B} (n : Nat) (ho : Obs D.step s (.item a s')) (ha : F.decoder a.content = .error .system) :
    (F.dataset D).Trace (s, ⟨n, .loop⟩) [.err] := by
  refine C13_map_fatal D F.mapFn true n [] a s s s' .nil (by simp) ho ?_
  unfold Factory.mapFn Factory.loadSample
  simp [hF, ha]

/-! ### A case -/

/-- Odd numbers cannot be decoded. -/
def exF (handler : Exc → Bool) : Factory Nat Nat :=
  { autoDecode := true, ignoreDecoderErrors := true, handlerReturns := handler, construct := fun b => .ok (10 * b)
    decoder := fun b => if b % 2 = 1 then .error (.other "odd") else .ok b }

/-- **C124 is violated:** samples 2, 3, 4 with `ignore_decoder_errors` and the default handler: after 20 the iteration raises. -/
theorem C124_violated : ¬ C124_statement (exF reraise) (listD [2, 3, 4]) := by
  intro h
  have h3 : (exF reraise).Undecodable 3 := ⟨rfl, "odd", rfl⟩
  obtain ⟨ys, q, h1, h2⟩ := h rfl 0 _ 0 [20, 40] 0 (listD_pass [2, 3, 4])
    (.good ⟨2, rfl, rfl⟩ (.bad h3 (.good ⟨4, rfl, rfl⟩ .nil)))
  have h4 := ((exF reraise).dataset (listD [2, 3, 4])).eval_trace 10 (0, ⟨0, .loop⟩)
  have h5 : ((exF reraise).dataset (listD [2, 3, 4])).eval 10 (0, ⟨0, .loop⟩) = [.item ⟨20, [.str "MapDataset", .num 0, .num 0]⟩, .err] := by decide +kernel
  rw [h5] at h4
  have h7 : ys.length = 2 := by have := congrArg List.length h2; simpa using this
  have h6 := (h1.trace.take 2).det h4 (by simp [passEvs, h7])
  match ys, h7 with
  | [y, z], _ => simp [passEvs] at h6

example : ((exF fun _ => true).dataset (listD [2, 3, 4])).eval 20 (0, ⟨0, .loop⟩) =
    [.item ⟨20, [.str "MapDataset", .num 0, .num 0]⟩, .item ⟨40, [.str "MapDataset", .num 2, .num 2]⟩, .fin] ++ (((exF fun _ => true).dataset (listD [2, 3, 4])).eval 20 (0, ⟨0, .loop⟩)).drop 3 := by decide +kernel

/-- The hypotheses of `C124_violated_raises` are met. -/
example : ∃ ys : List (Smp Nat), ys.map (·.content) = [20] ∧ ((exF reraise).dataset (listD [2, 3, 4])).Trace (0, ⟨0, .loop⟩) (ys.map .item ++ [.err]) :=
  C124_violated_raises (exF reraise) rfl (listD [2, 3, 4]) (s := 0) (s' := 1) (s'' := 2) (xs := [⟨2, [.num 0]⟩]) (a := ⟨3, [.num 1]⟩) 0 (.item (.item rfl) .nil)
    (.good ⟨2, rfl, rfl⟩ .nil) (by
      intro x hx
      cases List.mem_singleton.1 hx
      rintro ⟨-, m, h⟩
      cases h) (.item rfl) ⟨rfl, "odd", rfl⟩

end Verif.Decode
