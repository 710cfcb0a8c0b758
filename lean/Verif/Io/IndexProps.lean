import Verif.Io.IndexModel

/-!
# C38: index files round trip and are published atomically
-/

namespace Verif.Io

theorem leBytes_length (k n : Nat) : (leBytes k n).length = k := by
  induction k generalizing n with
  | zero => rfl
  | succ k ih => simp [leBytes, ih]

theorem ofBytes_leBytes (k n : Nat) (h : n < 256 ^ k) : ofBytes (leBytes k n) = n := by
  induction k generalizing n with
  | zero => simp at h; subst h; rfl
  | succ k ih =>
    have : n / 256 < 256 ^ k := by
      rw [Nat.div_lt_iff_lt_mul (by decide)]
      rw [Nat.pow_succ] at h
      exact h
    simp only [leBytes, ofBytes, ih _ this]
    omega

/-- The content of a complete index file -/
def indexFile (offs : List Nat) : List Nat := (offs.map (leBytes 8)).flatten

theorem indexFile_length (offs : List Nat) : (indexFile offs).length = 8 * offs.length := by
  induction offs with
  | nil => rfl
  | cons n offs ih =>
    simp only [indexFile, List.map_cons, List.flatten_cons, List.length_append, leBytes_length, List.length_cons] at ih ⊢
    omega

theorem indexFile_slice (offs : List Nat) (i n : Nat) (h : offs[i]? = some n) :
    ((indexFile offs).drop (8 * i)).take 8 = leBytes 8 n := by
  induction offs generalizing i with
  | nil => cases h
  | cons m offs ih =>
    have e : indexFile (m :: offs) = leBytes 8 m ++ indexFile offs := by simp [indexFile]
    rw [e]
    cases i with
    | zero =>
      simp only [List.getElem?_cons_zero, Option.some.injEq] at h
      subst h
      rw [Nat.mul_zero, List.drop_zero, List.take_append_of_le_length (by rw [leBytes_length]; exact Nat.le_refl 8), List.take_of_length_le (by rw [leBytes_length]; exact Nat.le_refl 8)]
    | succ i =>
      rw [show 8 * (i + 1) = (leBytes 8 m).length + 8 * i by rw [leBytes_length]; omega, List.drop_length_add_append]
      exact ih i h

/-- **C38, round trip**: from a file with the offsets `offs`, reading entry `i` gives the offset number `i`, for all indexes; other
indexes are an error. -/
theorem C38_round_trip (offs : List Nat) (h : ∀ n ∈ offs, n < 2 ^ 64) (i : Int) :
    indexGet (indexFile offs) i = if i < 0 then none else offs[i.toNat]? := by
  have hl : indexLen (indexFile offs) = offs.length := by
    unfold indexLen
    rw [indexFile_length]
    omega
  unfold indexGet
  rw [hl]
  by_cases hi : i < 0
  · rw [if_pos (Or.inr hi), if_pos hi]
  · rw [if_neg hi]
    by_cases hi2 : i ≥ offs.length
    · rw [if_pos (Or.inl hi2), List.getElem?_eq_none (by omega)]
    · rw [if_neg (by simp only [not_or]; exact ⟨hi2, hi⟩)]
      have hlt : i.toNat < offs.length := by omega
      rw [indexFile_slice offs _ _ (List.getElem?_eq_getElem hlt), List.getElem?_eq_getElem hlt]
      unfold unpackQ
      rw [if_pos (leBytes_length ..), ofBytes_leBytes]
      exact h _ (List.getElem_mem hlt)

/-- With the index of a tar file this gives the offsets used by the reader (`Verif.Wds.byteOffset`), also the one of the end. -/
theorem C38_reader_offsets {B : Type} (tar : List (Wds.Member B)) (h : ∀ n ∈ Wds.tarIndex tar, n < 2 ^ 64) (i : Nat) :
    fileByteOffset (indexFile (Wds.tarIndex tar)) i = Wds.byteOffset (Wds.tarIndex tar) i := by
  unfold fileByteOffset Wds.byteOffset
  split
  · rfl
  · rw [C38_round_trip _ h, if_neg (by omega)]
    rfl

/-- What is on the disk and in the buffer, in the course of the writing. -/
def WInv (offs : List Nat) (d : Disk) (s : WState) : Prop :=
  match s.phase with
  | .start => s.disk = d
  | .writing todo => s.disk.final = d.final ∧ ∃ f before, s.disk.tmp = some f ∧ offs = before ++ todo ∧
      f ++ s.buf = indexFile before ∧ ∀ n ∈ before, n < 2 ^ 64
  | .closed => s.disk.final = d.final ∧ s.disk.tmp = some (indexFile offs) ∧ ∀ n ∈ offs, n < 2 ^ 64
  | .copied => s.disk.final = some (indexFile offs) ∧ ∀ n ∈ offs, n < 2 ^ 64
  | .failed => s.disk.final = d.final
  | .done true => s.disk.final = some (indexFile offs) ∧ s.disk.tmp = none ∧ ∀ n ∈ offs, n < 2 ^ 64
  | .done false => s.disk.final = d.final ∧ s.disk.tmp = none

theorem WReach.inv {offs : List Nat} {d : Disk} {s : WState} (h : WReach offs d s) : WInv offs d s := by
  induction h with
  | start => rfl
  | begin => exact ⟨rfl, [], [], rfl, rfl, rfl, by simp⟩
  | step _ hst ih =>
    cases hst with
    | @append _ _ n _ _ hp =>
      obtain ⟨h1, f, before, h2, h3, h4, h5⟩ := ih
      unfold packQ at hp
      split at hp
      · next hlt =>
        simp only [Option.some.injEq] at hp
        subst hp
        refine ⟨h1, f, before ++ [n], h2, by rw [h3]; simp, ?_, ?_⟩
        · simp only at h4 ⊢
          rw [← List.append_assoc, h4]
          simp [indexFile]
        · intro m hn
          rcases List.mem_append.1 hn with hn | hn
          · exact h5 m hn
          · rw [List.mem_singleton.1 hn]
            exact hlt
      · cases hp
    | flush hf =>
      obtain ⟨h1, f, before, h2, h3, h4, h5⟩ := ih
      simp only at h2
      rw [hf] at h2
      cases h2
      exact ⟨h1, _, before, rfl, h3, by simpa using h4, h5⟩
    | close hf =>
      obtain ⟨h1, f, before, h2, h3, h4, h5⟩ := ih
      simp only at h2
      rw [hf] at h2
      cases h2
      simp only [List.append_nil] at h3
      subst h3
      exact ⟨h1, by simp only at h4 ⊢; rw [h4], h5⟩
    | rename hf =>
      obtain ⟨h1, h2, h3⟩ := ih
      simp only at h2
      rw [hf] at h2
      cases h2
      exact ⟨rfl, rfl, h3⟩
    | copy hf =>
      obtain ⟨h1, h2, h3⟩ := ih
      simp only at h2
      rw [hf] at h2
      cases h2
      exact ⟨rfl, h3⟩
    | delete => exact ⟨ih.1, rfl, ih.2⟩
    | raise hf =>
      obtain ⟨h1, _⟩ := ih
      exact h1
    | unlink => exact ⟨ih, rfl⟩

/-- **C38, atomic publication**: at every point of the execution, with every behaviour of the buffer, the index file is either the one that
was there before (or none), or the complete new one. In particular if the process is killed at this point. -/
theorem C38_atomic {offs : List Nat} {d : Disk} {s : WState} (h : WReach offs d s) :
    s.disk.final = d.final ∨ (s.disk.final = some (indexFile offs) ∧ ∀ n ∈ offs, n < 2 ^ 64) := by
  have hi := h.inv
  unfold WInv at hi
  split at hi
  · exact Or.inl (by rw [hi])
  · exact Or.inl hi.1
  · exact Or.inl hi.1
  · exact Or.inr hi
  · exact Or.inl hi
  · exact Or.inr ⟨hi.1, hi.2.2⟩
  · exact Or.inl hi.1

/-- What a reader finds after a crash at any point, if there was no index file before: none, or one from which it reads the right offset of
every sample. -/
theorem C38_reader_after_crash {offs : List Nat} {d : Disk} {s : WState} (h : WReach offs d s) (hd : d.final = none) :
    s.disk.final = none ∨ ∃ f, s.disk.final = some f ∧ ∀ i : Nat, indexGet f i = offs[i]? := by
  rcases C38_atomic h with h1 | ⟨h1, h2⟩
  · exact Or.inl (by rw [h1, hd])
  · refine Or.inr ⟨_, h1, fun i => ?_⟩
    rw [C38_round_trip _ h2, if_neg (by omega)]
    rfl

/-- A writing that ends normally publishes the complete file; one that ends with an exception publishes nothing; neither leaves the temporary
file. -/
theorem C38_outcome {offs : List Nat} {d : Disk} {disk : Disk} {buf : List Nat} {ok : Bool} (h : WReach offs d ⟨disk, buf, .done ok⟩) :
    disk.tmp = none ∧ disk.final = if ok then some (indexFile offs) else d.final := by
  have hi := h.inv
  cases ok with
  | true => exact ⟨hi.2.1, hi.1⟩
  | false => exact ⟨hi.2, hi.1⟩

/-- Every index with offsets below 2^64 can be written. -/
theorem C38_can_finish (offs : List Nat) (h : ∀ n ∈ offs, n < 2 ^ 64) (d : Disk) :
    ∃ disk buf, WReach offs d ⟨disk, buf, .done true⟩ := by
  have key : ∀ (todo : List Nat) (disk : Disk) (buf : List Nat), (∀ n ∈ todo, n < 2 ^ 64) →
      WReach offs d ⟨disk, buf, .writing todo⟩ → ∃ buf', WReach offs d ⟨disk, buf', .writing []⟩ := by
    intro todo
    induction todo with
    | nil => intro disk buf _ hr; exact ⟨buf, hr⟩
    | cons n todo ih =>
      intro disk buf hn hr
      refine ih disk (buf ++ leBytes 8 n) (fun m hm => hn m (List.mem_cons_of_mem _ hm)) (.step hr (.append ?_))
      unfold packQ
      rw [if_pos (hn n (List.mem_cons_self ..))]
  obtain ⟨buf, h1⟩ := key offs _ _ h .begin
  exact ⟨_, _, .step (.step h1 (.close rfl)) (.rename rfl)⟩

/-- A concrete index: `Verif.Wds` example. -/
example : indexGet (indexFile [512, 2560, 5632, 6656]) 3 = some 6656 ∧ indexGet (indexFile [512, 2560]) 2 = none ∧
    indexGet (indexFile [512, 2560]) (-1) = none := by decide +kernel

end Verif.Io
