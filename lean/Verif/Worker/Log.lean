import Verif.Worker.Props
import Mathlib.Data.List.Induction

/-!
# C92: the debug logs of the workers

`WorkerConfig.worker_log` (worker.py:238-261) with a `worker_debug_path` containing `{worker_id}` and `{pid}`, as its documentation asks for. A file is
named by the two numbers. Simplifications: entries are opaque; the file of another process is not written to (the pid is in the name), so a
file is a list of entries, opening it with `"w"` empties it, and writing (with a flush) appends.
-/

namespace Verif.Worker

/-- worker.py:243-249: the number in the name of the file. `none`: `rank_worker_id` raises. -/
def logId (c : Config) (p : Proc) : Option Nat :=
  (rankWorkerId c p).map fun w => c.rank * (c.numWorkers + 1) + w + if p.info.isSome then 1 else 0

/-- `_worker_debug_file_worker_id` of every process (`none`: no file open), and the files. -/
structure Logs (E : Type) where
  opened : Nat → Option Nat
  files : Nat × Nat → List E

variable {E : Type}

/-- One call of `worker_log` in process `pid`: lines 250-261. -/
def logStep (c : Config) (pid : Nat) (p : Proc) (e : E) (s : Logs E) : Option (Logs E) :=
  match logId c p with
  | none => none
  | some i =>
    let files := if s.opened pid = some i then s.files else fun f => if f = (i, pid) then [] else s.files f
    some ⟨fun q => if q = pid then some i else s.opened q, fun f => if f = (i, pid) then files f ++ [e] else files f⟩

/-- A call of `worker_log`: the process, what `rank_worker_id` reads there, the entry. -/
structure LogCall (E : Type) where
  pid : Nat
  proc : Proc
  entry : E

/-- Calls in the order in which they happen, in all processes (`cfg`: the configuration of each). -/
def runLog (cfg : Nat → Config) : List (LogCall E) → Logs E → Option (Logs E)
  | [], s => some s
  | l :: ls, s => (logStep (cfg l.pid) l.pid l.proc l.entry s).bind (runLog cfg ls)

/-- No file is open yet, all files are empty. -/
def noLogs : Logs E := ⟨fun _ => none, fun _ => []⟩

/-! ## Specification -/

/-- The entries of one process, in order. -/
def entriesOf (pid : Nat) (l : List (LogCall E)) : List E := (l.filter (·.pid = pid)).map (·.entry)

/-- What is found in the files of a process after some calls: all of its entries, in order, in one file. -/
def Kept (pid : Nat) (l : List (LogCall E)) (s : Logs E) : Prop :=
  ∃ i, s.files (i, pid) = entriesOf pid l ∧ ∀ j, j ≠ i → s.files (j, pid) = []

/-- **C92.** Every entry that is written to the debug logs is found there, in one file for each process. -/
def C92_statement : Prop :=
  ∀ (cfg : Nat → Config) (l : List (LogCall Nat)) (s : Logs Nat), runLog cfg l noLogs = some s → ∀ pid, Kept pid l s

/-! ## Proofs -/

theorem runLog_append (cfg : Nat → Config) (l m : List (LogCall E)) (s : Logs E) :
    runLog cfg (l ++ m) s = (runLog cfg l s).bind (runLog cfg m) := by
  induction l generalizing s with
  | nil => rfl
  | cons a l ih =>
    simp only [List.cons_append, runLog]
    cases logStep (cfg a.pid) a.pid a.proc a.entry s with
    | none => rfl
    | some s' => exact ih s'

/-- **C92**, as long as no sample is restored (then `rank_worker_id` of a process never changes): in all processes, after all histories, every entry
is kept. Missing for the full property: processes that restore samples while logging (see `C92_violated`). -/
theorem C92_kept_partial (cfg : Nat → Config) (info : Nat → Option (Nat × Nat)) (offset : Nat → Nat) (l : List (LogCall E))
    (hl : ∀ c ∈ l, c.proc = ⟨info c.pid, offset c.pid, none⟩) (s : Logs E) (h : runLog cfg l noLogs = some s) (pid : Nat) :
    Kept pid l s := by
  have key : ∀ (k : List (LogCall E)) (m : List (LogCall E)), l = k ++ m → ∀ t, runLog cfg k noLogs = some t →
      ∀ q, (entriesOf q k = [] ∧ t.opened q = none ∧ ∀ j, t.files (j, q) = []) ∨
        ∃ i, logId (cfg q) ⟨info q, offset q, none⟩ = some i ∧ t.opened q = some i ∧ t.files (i, q) = entriesOf q k ∧ ∀ j, j ≠ i → t.files (j, q) = [] := by
    intro k
    induction k using List.reverseRecOn with
    | nil =>
      intro m _ t ht q
      cases ht
      exact .inl ⟨rfl, rfl, fun _ => rfl⟩
    | append_singleton k c ih =>
      intro m hm t ht q
      rw [runLog_append] at ht
      cases hk : runLog cfg k noLogs with
      | none => rw [hk] at ht; cases ht
      | some t' =>
        rw [hk] at ht
        simp only [Option.bind_some, runLog] at ht
        have hc := hl c (by rw [hm]; simp)
        cases hi : logId (cfg c.pid) c.proc with
        | none => simp [logStep, hi] at ht
        | some i =>
          simp only [logStep, hi, Option.bind_some, Option.some.injEq] at ht
          have hq := ih (c :: m) (by rw [hm]; simp) t' hk q
          subst ht
          by_cases hpq : c.pid = q
          · subst hpq
            have hi' := hi
            rw [hc] at hi'
            have he : entriesOf c.pid (k ++ [c]) = entriesOf c.pid k ++ [c.entry] := by simp [entriesOf, List.filter_append]
            rw [he]
            refine .inr ⟨i, hi', by simp, ?_, ?_⟩
            · rcases hq with ⟨h1, h2, h3⟩ | ⟨i', h1, h2, h3, h4⟩
              · simp [h1, h2]
              · rw [hi'] at h1
                cases h1
                simp [h2, h3]
            · intro j hj
              have hne : ¬ ((j, c.pid) = (i, c.pid)) := fun he => hj (by injection he)
              simp only [hne, if_false]
              rcases hq with ⟨h1, h2, h3⟩ | ⟨i', h1, h2, h3, h4⟩
              · simp [h2, hne, h3]
              · rw [hi'] at h1
                cases h1
                simp [h2, h4 j hj]
          · have he : entriesOf q (k ++ [c]) = entriesOf q k := by simp [entriesOf, List.filter_append, hpq]
            have hne : ∀ j, ¬ ((j, q) = (i, c.pid)) := fun j he => hpq (by injection he with _ h; exact h.symm)
            have hf : ∀ j, (if t'.opened c.pid = some i then t'.files else fun f => if f = (i, c.pid) then [] else t'.files f) (j, q) = t'.files (j, q) := by
              intro j
              by_cases ho : t'.opened c.pid = some i
              · simp [ho]
              · simp [ho, hne j]
            have hqc : ¬ q = c.pid := fun h => hpq h.symm
            simp only [hne, if_false, hf, hqc, he]
            exact hq
  rcases key l [] (by simp) s h pid with ⟨h1, _, h3⟩ | ⟨i, _, _, h3, h4⟩
  · exact ⟨0, by rw [h1, h3], fun j _ => h3 j⟩
  · exact ⟨i, h3, h4⟩

/-- A process of a loader with `n` workers: `w` is `none` for the main process of a rank, or the number of a worker process, which starts with the
given offset (`worker_id_offset` "is only set to nonzero within a worker process"). -/
def procOf (n off : Nat) : Option Nat → Proc
  | none => ⟨none, 0, none⟩
  | some i => ⟨some (i, n), off, none⟩

/-- **C92.** Also without the pid in the name, the files of the main processes and the worker processes of all ranks are different. -/
theorem C92_different_files (world n : Nat) (off : Nat → Nat) (hoff : ∀ r, off r < max n 1) (r r' : Nat) (w w' : Option Nat)
    (hw : ∀ i, w = some i → i < n) (hw' : ∀ i, w' = some i → i < n)
    (h : logId ⟨r, world, n⟩ (procOf n (off r) w) = logId ⟨r', world, n⟩ (procOf n (off r') w')) : r = r' ∧ w = w' := by
  have e : ∀ (r : Nat) (w : Option Nat), (∀ i, w = some i → i < n) →
      ∃ k, k ≤ n ∧ logId ⟨r, world, n⟩ (procOf n (off r) w) = some (r * (n + 1) + k) ∧
        (w = none → k = 0) ∧ ∀ i, w = some i → k = (i + n - off r) % n + 1 := by
    intro r w hw
    cases w with
    | none => exact ⟨0, by omega, by simp [logId, rankWorkerId, procOf], fun _ => rfl, fun i hi => by cases hi⟩
    | some i =>
      have hn : 0 < n := by have := hw i rfl; omega
      refine ⟨(i + n - off r) % n + 1, Nat.mod_lt _ hn, ?_, (fun h => by cases h), fun j hj => by cases hj; rfl⟩
      simp [logId, rankWorkerId, procOf, Nat.add_assoc]
  obtain ⟨k, hk, e1, z1, s1⟩ := e r w hw
  obtain ⟨k', hk', e2, z2, s2⟩ := e r' w' hw'
  rw [e1, e2] at h
  injection h with h
  obtain ⟨hr, hkk⟩ := C07_global_ids (n + 1) r r' k k' (by omega) (by omega) h
  subst hr hkk
  refine ⟨rfl, ?_⟩
  cases w with
  | none =>
    cases w' with
    | none => rfl
    | some j => have := z1 rfl; have := s2 j rfl; omega
  | some i =>
    cases w' with
    | none => have := z2 rfl; have := s1 i rfl; omega
    | some j =>
      have hi := hw i rfl
      have hj := hw' j rfl
      have h1 := s1 i rfl
      have h2 := s2 j rfl
      have hlt : off r < n := by have := hoff r; omega
      generalize off r = o at h1 h2 hlt
      have hmod : (i + n - o) % n = (j + n - o) % n := by omega
      have hiff : ∀ x, x < n → (x + n - o) % n = if o ≤ x then x - o else x + n - o := by
        intro x hx
        by_cases hle : o ≤ x
        · rw [if_pos hle, show x + n - o = (x - o) + n from by omega, Nat.add_mod_right, Nat.mod_eq_of_lt (by omega)]
        · rw [if_neg hle, Nat.mod_eq_of_lt (by omega)]
      rw [hiff i hi, hiff j hj] at hmod
      congr 1
      split at hmod <;> split at hmod <;> omega

/-- The main process of rank 0 with three workers. -/
def mainCfg : Nat → Config := fun _ => ⟨0, 1, 3⟩

/-- It logs, restores a sample of worker 1 (which logs the reading of the shard), and logs again. -/
def mainCalls : List (LogCall Nat) :=
  [⟨7, ⟨none, 0, none⟩, 10⟩, ⟨7, ⟨none, 0, some 1⟩, 11⟩, ⟨7, ⟨none, 0, none⟩, 12⟩]

/-- **C92 is false of the code**: while a sample of another worker than the first is restored, the main process logs under another number; then it
opens its own file again, and all that was in it is lost. -/
theorem C92_violated : ¬ C92_statement := by
  intro h
  have hr : ∃ s, runLog mainCfg mainCalls noLogs = some s ∧ s.files (0, 7) = [12] ∧ s.files (1, 7) = [11] := ⟨_, rfl, by decide, by decide⟩
  obtain ⟨s, h1, h2, h3⟩ := hr
  obtain ⟨i, h4, h5⟩ := h mainCfg mainCalls s h1 7
  by_cases hi : i = 0
  · subst hi
    rw [h2] at h4
    revert h4
    decide
  · have := h5 0 (Ne.symm hi)
    rw [h2] at this
    cases this

/-- Two workers and the main process log in turns. -/
example : ∃ s, runLog mainCfg
      [⟨7, ⟨none, 0, none⟩, 10⟩, ⟨8, ⟨some (0, 3), 1, none⟩, 11⟩, ⟨9, ⟨some (1, 3), 1, none⟩, 12⟩, ⟨8, ⟨some (0, 3), 1, none⟩, 13⟩, ⟨7, ⟨none, 0, none⟩, 14⟩]
      noLogs = some s ∧ s.files (0, 7) = [10, 14] ∧ s.files (3, 8) = [11, 13] ∧ s.files (1, 9) = [12] := ⟨_, rfl, by decide, by decide, by decide⟩

end Verif.Worker
