import Verif.Io.SubFileProps
import Verif.Io.RetryModel

/-!
# C41: reading through the retrying stream
-/

namespace Verif.Io

variable {β : Type}

/-- The bytes a caller at position `p` expects of `read(n)`: the next `n` bytes (or those that are left), or for a negative `n` all that are left. -/
def expected (content : List β) (p : Nat) : Int → List β
  | .ofNat k => (content.drop p).take k
  | .negSucc _ => content.drop p

/-- What the caller relies on: from position `p`, each read gives an error (and the position stays), or exactly the bytes it asks for; a seek goes to
its target, or to the end it runs against. -/
def GoodRun (content : List β) : Nat → List RCall → List (RAns β) → Prop
  | _, [], [] => True
  | p, .read n _ :: cs, .read a :: as =>
    (a = .error ∧ GoodRun content p cs as) ∨
      (a = .data (expected content p n) ∧ GoodRun content (p + (expected content p n).length) cs as)
  | p, .seek o w _ :: cs, .seek q :: as =>
    match seekTo p content.length o w with
    | some t => q = some (within t content.length) ∧ GoodRun content (within t content.length) cs as
    | none => q = none ∧ GoodRun content p cs as
  | _, _, _ => False

/-- No read is short. -/
def NoShort (atts : List Att) : Prop := ∀ k, Att.short k ∉ atts

/-- No read is short and no seek of the file below fails. -/
def CallOk : RCall → Prop
  | .read _ atts => NoShort atts
  | .seek _ _ ok => ok = true

theorem wanted_expected (content : List β) (p : Nat) (n : Int) : wanted content p n = expected content p n := by
  unfold wanted
  cases n with
  | ofNat k => rw [if_neg (by simp)]; rfl
  | negSucc k => rw [if_pos (Int.negSucc_lt_zero k)]; rfl

theorem wanted_done (content : List β) (p : Nat) (n : Int) :
    ((wanted content p n).length : Int) = n ∨ content.length ≤ p + (wanted content p n).length := by
  unfold wanted
  split
  · right
    rw [List.length_drop]; omega
  · rw [List.length_take, List.length_drop]
    omega

/-- The file below is closed or at the position of the stream. -/
def Coherent (r : Retry) : Prop := r.file = none ∨ r.file = some r.pos

theorem Coherent.getD {r : Retry} (h : Coherent r) : r.file.getD r.pos = r.pos := by rcases h with h | h <;> rw [h] <;> rfl

theorem readLoop_full (content : List β) (n : Int) (left : Nat) (atts : List Att) (ha : NoShort atts) (r : Retry) (hr : Coherent r)
    (hl : 0 < left) :
    (∃ r', readLoop content n left atts [] r = (.error, r') ∧ r'.pos = r.pos ∧ Coherent r') ∨
      ∃ r', readLoop content n left atts [] r = (.data (wanted content r.pos n), r') ∧
        r'.pos = r.pos + (wanted content r.pos n).length ∧ Coherent r' := by
  induction left generalizing atts r with
  | zero => omega
  | succ left ih =>
    have htail : NoShort atts.tail := fun k hk => ha k (List.mem_of_mem_tail hk)
    have hfailed : (∃ r', (if left = 0 then ((.error, ⟨none, r.pos⟩) : RRes β × Retry) else readLoop content n left atts.tail [] ⟨none, r.pos⟩) = (.error, r') ∧
          r'.pos = r.pos ∧ Coherent r') ∨
        ∃ r', (if left = 0 then ((.error, ⟨none, r.pos⟩) : RRes β × Retry) else readLoop content n left atts.tail [] ⟨none, r.pos⟩) =
          (.data (wanted content r.pos n), r') ∧ r'.pos = r.pos + (wanted content r.pos n).length ∧ Coherent r' := by
      split
      · exact Or.inl ⟨⟨none, r.pos⟩, rfl, rfl, Or.inl rfl⟩
      · exact ih atts.tail htail ⟨none, r.pos⟩ (Or.inl rfl) (by omega)
    unfold readLoop
    simp only
    cases hatt : atts.headD .full with
    | openFails =>
      simp only
      cases hf : r.file with
      | none => exact Or.inl ⟨r, rfl, rfl, hr⟩
      | some _ => exact hfailed
    | seekFails => exact hfailed
    | readFails => exact hfailed
    | short k =>
      exfalso
      cases atts with
      | nil => cases hatt
      | cons a atts =>
        simp only [List.headD_cons] at hatt
        subst hatt
        exact ha k (List.mem_cons_self ..)
    | full =>
      simp only [hr.getD, List.nil_append]
      rw [if_pos (wanted_done ..)]
      exact Or.inr ⟨_, rfl, rfl, Or.inr rfl⟩

/-- **C41, the part that holds**: if no read of the file below is short and no seek of it fails, then for every sequence of reads and seeks and all
failures of opening, seeking after opening and reading, each read gives exactly the bytes asked for, or an error. What is missing: short reads and
failing seeks (`C41_violated_short`, `C41_violated_none`, `C41_violated_seek`). -/
theorem C41_reads_partial (content : List β) (calls : List RCall) (h : ∀ c ∈ calls, CallOk c) (r : Retry) (hr : Coherent r) :
    GoodRun content r.pos calls (runRetry content r calls) := by
  induction calls generalizing r with
  | nil => trivial
  | cons c calls ih =>
    have ih := fun r hr => ih (fun c hc => h c (List.mem_cons_of_mem _ hc)) r hr
    have hc := h c (List.mem_cons_self ..)
    unfold runRetry
    cases c with
    | read n atts =>
      rcases readLoop_full content n 10 atts hc r hr (by decide) with ⟨r', h1, h2, h3⟩ | ⟨r', h1, h2, h3⟩
      · refine Or.inl ?_
        simp only [Retry.call, Retry.read, h1]
        exact ⟨trivial, by have := ih r' h3; rwa [h2] at this⟩
      · refine Or.inr ?_
        simp only [Retry.call, Retry.read, h1]
        rw [← wanted_expected]
        exact ⟨rfl, by have := ih r' h3; rwa [h2] at this⟩
    | seek o w ok =>
      have hok : ok = true := hc
      subst hok
      simp only [GoodRun, Retry.call, Retry.seek, target_seekTo, clamp_within]
      cases seekTo r.pos content.length o w with
      | none => exact ⟨rfl, ih r hr⟩
      | some t =>
        refine ⟨rfl, ih ⟨if True then r.file.map (fun _ => within t content.length) else r.file, within t content.length⟩ ?_⟩
        unfold Coherent
        simp only [if_true]
        rcases hr with hf | hf <;> rw [hf]
        · exact Or.inl rfl
        · exact Or.inr rfl

/-- **C41 is violated** by a short read: only the last piece is returned. -/
theorem C41_violated_short : (Retry.read [1, 2, 3, 4] ⟨none, 0⟩ 4 [.short 3]).1 = .data [4] := by decide +kernel

/-- **C41 is violated** by a short read in the middle of the file: further reads ask for all `n` bytes again, the length is never right, and in
the end nothing is returned (`None`, no error), or bytes from elsewhere. -/
theorem C41_violated_none :
    (Retry.read (List.range 100) ⟨none, 0⟩ 4 [.short 3]).1 = .none ∧
    (Retry.read (List.range 10) ⟨none, 0⟩ 4 [.short 3]).1 = .data [7, 8, 9] := by decide +kernel

/-- **C41 is violated** by a failing seek of the open file: the exception is swallowed, and the file stays where it was. -/
theorem C41_violated_seek :
    (Retry.read [1, 2, 3, 4] ((Retry.read [1, 2, 3, 4] ⟨none, 0⟩ 1 []).2.seek 4 0 0 false).2 1 []).1 = .data [2] ∧
    ((Retry.read [1, 2, 3, 4] ⟨none, 0⟩ 1 []).2.seek 4 0 0 false).1 = some 0 := by decide +kernel

/-- Failures that are retried -/
example : runRetry [1, 2, 3, 4] ⟨none, 0⟩ [.read 1 [.readFails, .seekFails], .read 2 [.readFails], .seek 0 0 true, .read (-1) [.readFails]] =
    [.read (.data [1]), .read (.data [2, 3]), .seek (some 0), .read (.data [1, 2, 3, 4])] := by rfl

/-- Ten failures, and a failure to open, are reported. -/
example : (Retry.read [1, 2] ⟨none, 0⟩ 1 (List.replicate 10 .readFails)).1 = .error ∧ (Retry.read [1, 2] ⟨none, 0⟩ 1 [.openFails]).1 = .error := by
  decide +kernel

end Verif.Io
