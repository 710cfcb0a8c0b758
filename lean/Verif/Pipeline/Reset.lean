import Verif.Wrap.Reset
import Verif.Pipeline.Guard
import Verif.Pipeline.Example
import Verif.Stream.Lockstep

/-!
# C89 for the validation datasets

A validation dataset (without groups), reset at any point, delivers exactly what a new one delivers. With a limit, it resets itself at the end of every pass: all passes are the same.
-/

namespace Verif.Stream

variable {σ κ α C : Type}

/-- After the end of a pass the dataset behaves like a new one: all passes are alike. -/
def Dataset.Periodic (D : Dataset σ α κ) : Prop := ∀ s s', D.Paused true s → Obs D.step s (.fin s') → D.Equiv s' D.init

/-- **C89.** A limited dataset resets itself after each pass: all passes are alike. -/
theorem C89_limit_periodic {D : Dataset σ α κ} (length nw w : Nat) (ra : Bool) (hD : D.ResetsToInit) : (limitD D length nw w ra).Periodic := by
  rintro ⟨s, x⟩ p' hp ho
  obtain ⟨h1, h0, h2⟩ := limit_paused hp
  have h3 : x.ctl = .again ∨ x.ctl = .done → D.Equiv s D.init ∧ x.off = 0 := by
    rintro (e | e) <;> rcases h2 with h2 | h2 <;> simp only [e] at h2 <;> cases h2
  clear h2 hp h0
  have key : D.Paused true p'.1 ∧ D.Equiv p'.1 D.init ∧ p'.2 = ⟨0, .start⟩ := by
    replace ho := wrap_obs.1 ho
    simp only at h1
    generalize ho' : Out.fin p' = o at ho
    induction ho with
    | emit => cases ho'
    | raise => cases ho'
    | pullErr => cases ho'
    | @halt s x x' ha =>
      cases ho'
      obtain ⟨n, c⟩ := x
      cases c <;> simp only [limitW] at ha
      case start => split at ha <;> cases ha
      case got a => split at ha <;> cases ha
      case done =>
        cases ha
        obtain ⟨h4, h5⟩ := h3 (.inr rfl)
        simp only at h5
        subst h5
        exact ⟨h1, h4, rfl⟩
      all_goals cases ha
    | @tau s x x' o ha _ ih =>
      obtain ⟨n, c⟩ := x
      refine ih h1 ?_ ho'
      cases c <;> simp only [limitW] at ha
      case start => split at ha <;> cases ha <;> rintro (e | e) <;> cases e
      case got a =>
        split at ha <;> cases ha
        rintro (e | e) <;> cases e
      all_goals cases ha
    | @reset s x x' o ha _ ih =>
      obtain ⟨n, c⟩ := x
      refine ih (.reset rfl h1) ?_ ho'
      cases c <;> simp only [limitW] at ha
      case start => split at ha <;> cases ha
      case got a => split at ha <;> cases ha
      case finish => cases ha; exact fun _ => ⟨hD _ h1, rfl⟩
      case again =>
        cases ha
        exact fun _ => ⟨hD _ h1, (h3 (.inl rfl)).2⟩
      all_goals cases ha
    | @pullItem s x i f g a s' o ha hs _ ih =>
      obtain ⟨n, c⟩ := x
      refine ih (.item h1 hs) ?_ ho'
      cases c <;> simp only [limitW] at ha
      case start => split at ha <;> cases ha
      case got a => split at ha <;> cases ha
      case loop => cases ha; rintro (e | e) <;> cases e
      all_goals cases ha
    | @pullFin s x i f g s' o ha hs _ ih =>
      obtain ⟨n, c⟩ := x
      refine ih (.fin h1 hs) ?_ ho'
      cases c <;> simp only [limitW] at ha
      case start => split at ha <;> cases ha
      case got a => split at ha <;> cases ha
      case loop => cases ha; rintro (e | e) <;> cases e
      all_goals cases ha
  obtain ⟨s', x'⟩ := p'
  obtain ⟨k1, k2, k3⟩ := key
  simp only at k3
  subst k3
  exact wrap_equiv_reset (r := true) hD rfl k1 .init k2 _

/-- A `LogSampleDataset` on top changes nothing: its counter is not observable. -/
theorem log_periodic {D : Dataset σ (Smp C) κ} (h : D.Periodic) : (logD D).Periodic := by
  rintro ⟨s, n, c⟩ p' hp ho
  obtain ⟨h1, h2⟩ := loopW_paused hp
  simp only at h1 h2
  subst h2
  have key : ∃ s', Obs D.step s (.fin s') ∧ p' = (s', ⟨n, .loop⟩) := by
    have ho' := wrap_obs.1 ho
    cases ho' with
    | halt ha => cases ha
    | tau ha => cases ha
    | reset ha => cases ha
    | pullItem ha hs hw =>
      cases ha
      cases hw with
      | halt hb => cases hb
      | tau hb => cases hb
      | reset hb => cases hb
      | pullItem hb => cases hb
      | pullFin hb => cases hb
    | pullFin ha hs hw =>
      cases ha
      cases hw with
      | halt hb => cases hb; exact ⟨_, hs, rfl⟩
      | tau hb => cases hb
      | reset hb => cases hb
      | pullItem hb => cases hb
      | pullFin hb => cases hb
  obtain ⟨s', hs, rfl⟩ := key
  have e1 : (logD D).Equiv (s', ⟨n, .loop⟩) (D.init, ⟨n, .loop⟩) := wrap_equiv loopW_noReset (h _ _ h1 hs) _
  have e2 : (logD D).Equiv (D.init, ⟨n, .loop⟩) (D.init, ⟨0, .loop⟩) := by
    refine wrap_equiv_lockstep (R := fun x y => x.ctl = y.ctl) ?_ _ rfl
    rintro ⟨m, c⟩ ⟨m', c'⟩ hc
    simp only at hc
    subst hc
    cases c with
    | loop => exact .pull (fun a => rfl) rfl
    | got a => exact .emit rfl
    | done => exact .halt rfl
  exact e1.trans e2

end Verif.Stream

namespace Verif.Pipeline

open Verif.Stream Verif.Wds

variable {B C K ρ : Type}

theorem withRestore_resets {σ α κ : Type} {D : Dataset σ α κ} {f : List Key → Option α} (h : D.ResetsToInit) : (D.withRestore f).ResetsToInit := by
  intro s hs evs
  rw [Dataset.withRestore_trace, Dataset.withRestore_trace]
  exact h s (Dataset.withRestore_paused.1 hs) evs

theorem onlyIf_resets {st : Bool} {A : AnyDs C} (h : A.D.ResetsToInit) : (onlyIf st A).D.ResetsToInit := withRestore_resets h

theorem mapStage_resets {u : Option (UserMap C)} {A : AnyDs C} (h : A.D.ResetsToInit) : (mapStage u A).D.ResetsToInit := by
  match u with
  | none => exact h
  | some (.plain f st) => exact C89_map f st h
  | some (.gen f st) => exact C89_map_generator f st h

theorem buildBatch_resets [DecidableEq K] {E : Encoder C K} (hg : E.group = none) {bs : Option Nat} {dl : Bool} {packing : Option Nat} {A A' : AnyDs C}
    (h : A.D.ResetsToInit) (e : buildBatch E bs dl packing A = .ok A') : A'.D.ResetsToInit := by
  unfold buildBatch at e
  cases hp : packStage E packing A with
  | error er => rw [hp] at e; cases e
  | ok A1 =>
    rw [hp] at e
    have h1 : A1.D.ResetsToInit := by
      unfold packStage at hp
      cases packing with
      | none => cases hp; exact h
      | some n =>
        simp only at hp
        cases hpk : E.pack with
        | none => rw [hpk] at hp; cases hp
        | some q =>
          obtain ⟨pre, gen, f⟩ := q
          rw [hpk] at hp
          cases hp
          exact onlyIf_resets (A := ⟨_, _, packD A.D n pre gen f⟩) (C89_pack n pre gen f h)
    simp only [batchStage, hg] at e
    cases bs with
    | none =>
      simp only at e
      split at e
      · cases e
      · cases e; exact h1
    | some n =>
      cases e
      exact mapStage_resets (onlyIf_resets (A := ⟨_, _, batchD A1.D n dl E.batch⟩) (C89_batch n dl E.batch h1))

theorem part_resets {R : WRng ρ} {d : Disk B C} {w : Sharder.WorkerConfig} {rot i : Nat} {D} (h : buildPart R d false w rot i = .ok D) : D.ResetsToInit := by
  unfold buildPart at h
  split at h
  · cases h
  · cases h
    exact C89_map _ _ (C89_reader R _ rfl _)

theorem parts_resets {R : Rngs ρ} {w : Sharder.WorkerConfig} {i : Nat} {l : List (Disk B C × Nat)} {j : Nat} {Ds} (h : buildParts R false w i j l = .ok Ds) :
    ∀ D ∈ Ds, D.ResetsToInit := by
  induction l generalizing j Ds with
  | nil => cases h; simp
  | cons q l ih =>
    obtain ⟨d, rot⟩ := q
    simp only [buildParts] at h
    split at h
    · next D Ds' h1 h2 =>
      cases h
      intro D' hD'
      rcases List.mem_cons.1 hD' with rfl | hD'
      · exact part_resets h1
      · exact ih h2 D' hD'
    · cases h
    · cases h

theorem valSource_resets {R : Rngs ρ} {ds : List (Disk B C)} {w : Sharder.WorkerConfig} {i : Nat} {A : AnyDs C} (h : valSource R ds w i = .ok A) : A.D.ResetsToInit := by
  unfold valSource at h
  split at h
  · cases h
  · split at h
    · cases h
    · next D hD => cases h; exact part_resets hD
  · split at h
    · cases h
    · cases h
    · next D Ds hD =>
      cases h
      refine C89_concat _ _ fun k => parts_resets hD _ ?_
      unfold nth
      rw [List.getD_eq_getElem?_getD]
      cases hk : (D :: Ds)[k]? with
      | none => simp
      | some D' => simpa using List.mem_of_getElem? hk

/-- **C89.** A validation dataset without groups, in every worker, for every task encoder, whatever its functions do: `restore_state(None)` at any point, and it delivers
exactly what a newly built one delivers. -/
theorem C89_validation [DecidableEq K] (R : Rngs ρ) (E : Encoder C K) (hg : E.group = none) (ds : List (Disk B C)) (o : ValOpts) (w : Sharder.WorkerConfig) (i : Nat)
    (A : AnyDs C) (h : valDs R E ds o w i = .ok A) : A.D.ResetsToInit := by
  unfold valDs at h
  split at h
  · cases h
  · next A0 hA0 =>
    split at h
    · cases h
    · next A1 hA1 =>
      cases h
      have h1 := buildBatch_resets hg (mapStage_resets (mapStage_resets (valSource_resets hA0))) hA1
      have h2 : (limitStage o.limit w.numWorkers i A1).D.ResetsToInit := by
        cases o.limit with
        | none => exact h1
        | some n =>
          by_cases hn : 0 < n
          · have e : limitStage (some n) w.numWorkers i A1 = ⟨_, _, limitD A1.D n w.numWorkers i true⟩ := if_pos hn
            rw [e]
            exact C89_limit _ _ _ _ h1
          · have e : limitStage (some n) w.numWorkers i A1 = A1 := if_neg hn
            rw [e]
            exact h1
      cases o.logging with
      | true => exact C89_log h2
      | false => exact h2

/-- **C89.** With a limit, all passes of a validation dataset are alike: at the end of a pass it is as good as new. So every validation run delivers the same batches with the
same restore keys, and errors at the same places, also if the user functions use the sample index. -/
theorem C89_validation_periodic [DecidableEq K] (R : Rngs ρ) (E : Encoder C K) (hg : E.group = none) (ds : List (Disk B C)) (o : ValOpts) (w : Sharder.WorkerConfig) (i : Nat)
    (n : Nat) (hn : 0 < n) (hl : o.limit = some n) (A : AnyDs C) (h : valDs R E ds o w i = .ok A) : A.D.Periodic := by
  unfold valDs at h
  split at h
  · cases h
  · next A0 hA0 =>
    split at h
    · cases h
    · next A1 hA1 =>
      cases h
      have h1 := buildBatch_resets hg (mapStage_resets (mapStage_resets (valSource_resets hA0))) hA1
      have h2 : (limitStage o.limit w.numWorkers i A1).D.Periodic := by
        rw [hl]
        have e : limitStage (some n) w.numWorkers i A1 = ⟨_, _, limitD A1.D n w.numWorkers i true⟩ := if_pos hn
        rw [e]
        exact C89_limit_periodic _ _ _ _ h1
      cases o.logging with
      | true => exact log_periodic h2
      | false => exact h2

/-- Whether the dataset is built -/
def built (X : Except BErr (AnyDs C)) : Bool := match X with | .ok _ => true | .error _ => false

/-- The hypotheses are met: two datasets with 4 and 7 samples, a limit of 3 batches, two ranks with two workers; every pass is the same. -/
example : exE.group = none ∧ built (valDs exR exE [exDisk "a" 10 4, exDisk "b" 100 7] ⟨2, false, none, some 3, true⟩ ⟨1, 2, 2⟩ 0) = true ∧
    (delivered (valDs exR exE [exDisk "a" 10 4, exDisk "b" 100 7] ⟨2, false, none, some 3, true⟩ ⟨1, 2, 2⟩ 0) 100).take 6 =
      [some 232, some 210, none, some 232, some 210, none] := by decide +kernel

end Verif.Pipeline
